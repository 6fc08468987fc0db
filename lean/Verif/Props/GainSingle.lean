import Verif.Signal.GainSingle
import Verif.Props.AGC
import Mathlib.Analysis.Real.Sqrt
import Mathlib.Algebra.Order.Ring.Pow

/-!
# C95: gain control in single precision
-/

namespace Verif.Signal
open Verif.FP32

/-! ### Relative errors -/

/-- The factor of one rounding. -/
noncomputable def gfac : ℝ := 2 ^ 24 / (2 ^ 24 - 1)

theorem gfac_one : 1 ≤ gfac := by unfold gfac; rw [le_div_iff₀ (by norm_num)]; norm_num

theorem gfac_inv : gfac⁻¹ = 1 + -(1 / 2 ^ 24) := by unfold gfac; norm_num

theorem gpow_one (m : Nat) : 1 ≤ gfac ^ m := one_le_pow₀ gfac_one

theorem gpow_pos (m : Nat) : 0 < gfac ^ m := lt_of_lt_of_le one_pos (gpow_one m)

theorem gpow_inv (m : Nat) : 1 - m / 2 ^ 24 ≤ (gfac ^ m)⁻¹ := by
  rw [← inv_pow, gfac_inv]
  have := one_add_mul_le_pow (a := (-(1 / 2 ^ 24) : ℝ)) (by norm_num) m
  linarith

theorem gpow_le (m : Nat) (hm : m ≤ 2 ^ 23) : gfac ^ m ≤ 1 + m / 2 ^ 23 := by
  have h1 := gpow_inv m
  have hm' : (m : ℝ) ≤ 2 ^ 23 := by exact_mod_cast hm
  have h0 : (0 : ℝ) ≤ m := by positivity
  have hpos : (0 : ℝ) < 1 - m / 2 ^ 24 := by linarith
  have h2 : gfac ^ m ≤ (1 - (m : ℝ) / 2 ^ 24)⁻¹ := by
    rw [le_inv_comm₀ (gpow_pos m) hpos]; exact h1
  refine h2.trans ?_
  rw [inv_le_iff_one_le_mul₀ hpos]
  nlinarith

/-- `x` is `y` up to `m` roundings. -/
def Near (m : Nat) (x y : ℝ) : Prop := 0 < y ∧ y ≤ x * gfac ^ m ∧ x ≤ y * gfac ^ m

theorem Near.pos {m : Nat} {x y : ℝ} (h : Near m x y) : 0 < x := by
  have := lt_of_lt_of_le h.1 h.2.1
  exact (pos_iff_pos_of_mul_pos this).2 (gpow_pos m)

theorem Near.mono {m k : Nat} {x y : ℝ} (h : Near m x y) (hk : m ≤ k) : Near k x y := by
  have hg : gfac ^ m ≤ gfac ^ k := pow_le_pow_right₀ gfac_one hk
  exact ⟨h.1, h.2.1.trans (mul_le_mul_of_nonneg_left hg h.pos.le), h.2.2.trans (mul_le_mul_of_nonneg_left hg h.1.le)⟩

theorem Near.refl {x : ℝ} (h : 0 < x) : Near 0 x x := ⟨h, by simp, by simp⟩

theorem Near.trans {a b : Nat} {x y z : ℝ} (h1 : Near a x y) (h2 : Near b y z) : Near (a + b) x z := by
  refine ⟨h2.1, ?_, ?_⟩
  · calc z ≤ y * gfac ^ b := h2.2.1
      _ ≤ x * gfac ^ a * gfac ^ b := mul_le_mul_of_nonneg_right h1.2.1 (gpow_pos b).le
      _ = _ := by rw [pow_add]; ring
  · calc x ≤ y * gfac ^ a := h1.2.2
      _ ≤ z * gfac ^ b * gfac ^ a := mul_le_mul_of_nonneg_right h2.2.2 (gpow_pos a).le
      _ = _ := by rw [pow_add]; ring

theorem Near.add {m : Nat} {x y z w : ℝ} (h1 : Near m x y) (h2 : Near m z w) : Near m (x + z) (y + w) :=
  ⟨add_pos h1.1 h2.1, by rw [add_mul]; exact add_le_add h1.2.1 h2.2.1, by rw [add_mul]; exact add_le_add h1.2.2 h2.2.2⟩

theorem Near.mulc {m : Nat} {x y c : ℝ} (h : Near m x y) (hc : 0 < c) : Near m (c * x) (c * y) :=
  ⟨mul_pos hc h.1, by rw [mul_assoc]; exact mul_le_mul_of_nonneg_left h.2.1 hc.le,
    by rw [mul_assoc]; exact mul_le_mul_of_nonneg_left h.2.2 hc.le⟩

theorem Near.inv {m : Nat} {x y : ℝ} (h : Near m x y) : Near m x⁻¹ y⁻¹ := by
  have hx := h.pos
  have hy := h.1
  have hg := gpow_pos m
  refine ⟨inv_pos.2 hy, ?_, ?_⟩
  · rw [inv_mul_eq_div, le_div_iff₀ hx, inv_mul_le_iff₀ hy]; linarith [h.2.2]
  · rw [inv_mul_eq_div, le_div_iff₀ hy, inv_mul_le_iff₀ hx]; linarith [h.2.1]

theorem Near.sqrt {a b : Nat} {x y : ℝ} (h : Near a x y) (hb : a ≤ 2 * b) : Near b (√x) (√y) := by
  have h' := h.mono hb
  have hg : gfac ^ (2 * b) = (gfac ^ b) ^ 2 := by rw [← pow_mul]; congr 1; omega
  have hs : √(gfac ^ (2 * b)) = gfac ^ b := by rw [hg, Real.sqrt_sq (gpow_pos b).le]
  refine ⟨Real.sqrt_pos.2 h.1, ?_, ?_⟩
  · rw [← hs, ← Real.sqrt_mul h.pos.le]; exact Real.sqrt_le_sqrt h'.2.1
  · rw [← hs, ← Real.sqrt_mul h.1.le]; exact Real.sqrt_le_sqrt h'.2.2

theorem Near.err {m : Nat} {x y : ℝ} (h : Near m x y) (hm : m ≤ 2 ^ 23) : |x - y| ≤ y * (2 * m / 2 ^ 24) := by
  have h1 := gpow_le m hm
  have h2 := gpow_inv m
  have hy := h.1
  have h3 : y * (gfac ^ m)⁻¹ ≤ x := by rw [← div_eq_mul_inv, div_le_iff₀ (gpow_pos m)]; exact h.2.1
  have h4 : y * (1 - m / 2 ^ 24) ≤ y * (gfac ^ m)⁻¹ := mul_le_mul_of_nonneg_left h2 hy.le
  have h5 : y * gfac ^ m ≤ y * (1 + m / 2 ^ 23) := mul_le_mul_of_nonneg_left h1 hy.le
  have h6 : 0 ≤ y * m := by positivity
  rw [abs_le]
  constructor
  · linarith
  · linarith [h.2.2]

/-- A factor of two covers all roundings. -/
theorem Near.two {m : Nat} {x y : ℝ} (h : Near m x y) (hm : m ≤ 2 ^ 23) : y / 2 ≤ x ∧ x ≤ 2 * y := by
  have h1 := gpow_le m hm
  have hm' : (m : ℝ) ≤ 2 ^ 23 := by exact_mod_cast hm
  have h2 : gfac ^ m ≤ 2 := by linarith
  have hx := h.pos
  have hy := h.1
  exact ⟨by nlinarith [h.2.1], by nlinarith [h.2.2]⟩

/-- One rounding of an exact result or of a value near one. -/
theorem near_of {x y : ℝ} (hy : 0 < y) (h : |x - y| ≤ y / 2 ^ 24) : Near 1 x y := by
  rw [abs_le] at h
  refine ⟨hy, ?_, ?_⟩
  · rw [pow_one]
    unfold gfac
    rw [mul_div_assoc', le_div_iff₀ (by norm_num)]
    linarith
  · rw [pow_one]
    unfold gfac
    rw [mul_div_assoc', le_div_iff₀ (by norm_num)]
    linarith

theorem near_rnd {x : ℚ} (h : (2 : ℚ) ^ (-126 : ℤ) ≤ x) : Near 1 (rnd x : ℝ) x := by
  have hp : (0 : ℚ) < x := lt_of_lt_of_le (by positivity) h
  have h1 := rnd_err (x := x) (by rwa [abs_of_pos hp])
  rw [abs_of_pos hp] at h1
  have h2 := (Rat.cast_le (K := ℝ)).2 h1
  push_cast at h2
  exact near_of (by exact_mod_cast hp) h2

/-! ### The sum of squares -/

/-- Samples whose squares, sums of squares and products with a gain neither overflow nor lose precision. -/
def Moderate (v : ℚ) : Prop := v = 0 ∨ (1 / 2 ^ 40 ≤ |v| ∧ |v| ≤ 2 ^ 40)

theorem fin_of {x : ℚ} (h : |x| ≤ 2 ^ 120) : F32.of x = F32.num (rnd x) := by
  refine F32.of_fin (lt_of_le_of_lt (rnd_abs_le ⟨1, 120, by norm_num, by norm_num, by norm_num⟩ h) (by norm_num))

theorem Near.twoQ {m : Nat} {x y : ℚ} (h : Near m (x : ℝ) y) (hm : m ≤ 2 ^ 23) : y / 2 ≤ x ∧ x ≤ 2 * y := by
  obtain ⟨h1, h2⟩ := h.two hm
  constructor
  · have : ((y / 2 : ℚ) : ℝ) ≤ x := by push_cast; exact h1
    exact_mod_cast this
  · have : (x : ℝ) ≤ ((2 * y : ℚ) : ℝ) := by push_cast; exact h2
    exact_mod_cast this

theorem Moderate.sq {v : ℚ} (h : Moderate v) (h0 : v ≠ 0) : 1 / 2 ^ 80 ≤ v * v ∧ v * v ≤ 2 ^ 80 := by
  obtain ⟨h1, h2⟩ := h.resolve_left h0
  rw [← abs_mul_abs_self v]
  have hp : 0 ≤ |v| := abs_nonneg v
  generalize |v| = a at h1 h2 hp
  constructor
  · calc (1 : ℚ) / 2 ^ 80 = 1 / 2 ^ 40 * (1 / 2 ^ 40) := by norm_num
      _ ≤ a * a := mul_le_mul h1 h1 (by norm_num) hp
  · calc a * a ≤ 2 ^ 40 * 2 ^ 40 := mul_le_mul h2 h2 hp (by norm_num)
      _ = 2 ^ 80 := by norm_num

/-- The sum of the squares of a window, exactly. -/
def sumSq (win : List ℚ) : ℚ := (win.map fun x => x * x).sum

/-- How many samples of a window are not zero. -/
def filled (win : List ℚ) : Nat := win.countP fun x => decide (x ≠ 0)

theorem sum_bounds (win : List ℚ) (h : ∀ v ∈ win, Moderate v) :
    (filled win : ℚ) * (1 / 2 ^ 80) ≤ sumSq win ∧ sumSq win ≤ filled win * 2 ^ 80 := by
  induction win with
  | nil => simp [sumSq, filled]
  | cons v win ih =>
    obtain ⟨h1, h2⟩ := ih fun u hu => h u (List.mem_cons_of_mem _ hu)
    have e1 : sumSq (v :: win) = v * v + sumSq win := by simp [sumSq]
    by_cases h0 : v = 0
    · have e2 : filled (v :: win) = filled win := by simp [filled, h0]
      rw [e1, e2, h0]
      rw [mul_zero, zero_add]
      exact ⟨h1, h2⟩
    · have e2 : filled (v :: win) = filled win + 1 := by simp [filled, h0]
      obtain ⟨h3, h4⟩ := (h v (List.mem_cons_self ..)).sq h0
      rw [e1, e2]
      push_cast
      constructor <;> linarith

/-- What has been summed up after `k` samples: `e` exactly, `a` by the program. -/
def Summed (k : Nat) (a e : ℚ) : Prop :=
  IsSingle a ∧ e ≤ k * 2 ^ 80 ∧ ((a = 0 ∧ e = 0) ∨ (1 ≤ k ∧ Near k (a : ℝ) e ∧ 1 / 2 ^ 80 ≤ e))

theorem summed_step {k : Nat} {a e v : ℚ} (h : Summed k a e) (hk : k + 1 ≤ 2 ^ 23) (hv : Moderate v) :
    ∃ a', F32.num a + F32.num v * F32.num v = F32.num a' ∧ Summed (k + 1) a' (e + v * v) := by
  obtain ⟨hs, he, hc⟩ := h
  have hk' : (k : ℚ) + 1 ≤ 2 ^ 23 := by exact_mod_cast hk
  have ha : 0 ≤ a ∧ a ≤ 2 * e ∧ 0 ≤ e := by
    rcases hc with ⟨h1, h2⟩ | ⟨_, h1, h2⟩
    · rw [h1, h2]; norm_num
    · obtain ⟨h3, h4⟩ := h1.twoQ (by omega)
      have h5 : (0 : ℚ) < 1 / 2 ^ 80 := by norm_num
      exact ⟨by linarith, h4, by linarith⟩
  have hbig : (2 : ℚ) ^ 23 * 2 ^ 80 = 2 ^ 103 := by norm_num
  have hlt : (2 : ℚ) ^ 103 * 2 + 2 ^ 103 ≤ 2 ^ 120 := by norm_num
  have hke : e ≤ 2 ^ 103 := by
    refine he.trans ?_
    rw [← hbig]
    exact mul_le_mul_of_nonneg_right (by linarith) (by norm_num)
  have h80 : (2 : ℚ) ^ 80 ≤ 2 ^ 103 := by norm_num
  by_cases h0 : v = 0
  · subst h0
    refine ⟨a, ?_, hs, ?_, ?_⟩
    · rw [F32.num_mul, fin_of (by norm_num), mul_zero, rnd_zero, F32.num_add, add_zero, fin_of (by
        rw [abs_of_nonneg ha.1]; linarith), rnd_single hs]
    · push_cast
      have : (0 : ℚ) ≤ 2 ^ 80 := by norm_num
      linarith
    · rcases hc with ⟨h1, h2⟩ | ⟨h1, h2, h3⟩
      · exact .inl ⟨h1, by rw [h2]; norm_num⟩
      · refine .inr ⟨by omega, ?_, by simpa using h3⟩
        simp only [mul_zero, add_zero]
        exact h2.mono (by omega)
  · obtain ⟨h3, h4⟩ := hv.sq h0
    have hn126 : (2 : ℚ) ^ (-126 : ℤ) ≤ 1 / 2 ^ 80 := by
      rw [zpow_neg, one_div]
      exact inv_anti₀ (by norm_num) (by norm_num)
    have hsq := near_rnd (x := v * v) (hn126.trans h3)
    obtain ⟨h5, h6⟩ := hsq.twoQ (by norm_num)
    have hpos : (0 : ℚ) < v * v := lt_of_lt_of_le (by norm_num) h3
    have hmul : F32.num v * F32.num v = F32.num (rnd (v * v)) := by
      rw [F32.num_mul, fin_of (by rw [abs_of_pos hpos]; linarith)]
    have hadd : F32.num a + F32.num (rnd (v * v)) = F32.num (rnd (a + rnd (v * v))) := by
      rw [F32.num_add, fin_of (by rw [abs_of_nonneg (by linarith)]; linarith)]
    refine ⟨rnd (a + rnd (v * v)), by rw [hmul, hadd], isSingle_rnd _, by push_cast; linarith, .inr ⟨by omega, ?_, by linarith⟩⟩
    rcases hc with ⟨h1, h2⟩ | ⟨h1, h2, h7⟩
    · rw [h1, h2, zero_add, zero_add, rnd_single (isSingle_rnd _)]
      exact hsq.mono (by omega)
    · have hsum : Near k ((a + rnd (v * v) : ℚ) : ℝ) ((e + v * v : ℚ) : ℝ) := by
        push_cast
        have := h2.add (hsq.mono h1)
        push_cast at this
        exact this
      have hr := near_rnd (x := a + rnd (v * v)) (by
        have := (hsum.twoQ (by omega)).1
        have h8 : (2 : ℚ) ^ (-126 : ℤ) ≤ 1 / 2 ^ 80 / 2 := by
          rw [zpow_neg, one_div, div_eq_mul_inv, ← mul_inv]
          exact inv_anti₀ (by norm_num) (by norm_num)
        exact h8.trans (by linarith))
      have := hr.trans hsum
      rwa [Nat.add_comm] at this

theorem summed_all (win : List ℚ) (hm : ∀ v ∈ win, Moderate v) : ∀ (k : Nat) (a e : ℚ), Summed k a e →
    k + win.length ≤ 2 ^ 23 →
    ∃ a', (win.map F32.num).foldl (fun amp x => amp + x * x) (F32.num a) = F32.num a' ∧
      Summed (k + win.length) a' (e + sumSq win) := by
  induction win with
  | nil => intro k a e h _; exact ⟨a, rfl, by simpa [sumSq] using h⟩
  | cons v win ih =>
    intro k a e h hk
    rw [List.length_cons] at hk
    obtain ⟨a1, h1, h2⟩ := summed_step h (by omega) (hm v (List.mem_cons_self ..))
    obtain ⟨a2, h3, h4⟩ := ih (fun u hu => hm u (List.mem_cons_of_mem _ hu)) _ _ _ h2 (by omega)
    refine ⟨a2, by rw [List.map_cons, List.foldl_cons, h1, h3], ?_⟩
    have e1 : e + sumSq (v :: win) = e + v * v + sumSq win := by simp [sumSq, add_assoc]
    rw [e1, List.length_cons, show k + (win.length + 1) = k + 1 + win.length by omega]
    exact h4

/-! ### The gain -/

/-- `std::sqrt` rounds the exact root to nearest: IEEE-754. -/
def GoodSqrt (sqrtf : ℚ → ℚ) : Prop := ∀ q : ℚ, (2 : ℚ) ^ (-126 : ℤ) ≤ q → |(sqrtf q : ℝ) - √(q : ℝ)| ≤ √(q : ℝ) / 2 ^ 24

theorem goodSqrt_exists : ∃ f, GoodSqrt f := by
  have key : ∀ q : ℚ, ∃ r : ℚ, (2 : ℚ) ^ (-126 : ℤ) ≤ q → |(r : ℝ) - √(q : ℝ)| ≤ √(q : ℝ) / 2 ^ 24 := by
    intro q
    by_cases hq : (2 : ℚ) ^ (-126 : ℤ) ≤ q
    · have hp : (0 : ℚ) < q := lt_of_lt_of_le (by positivity) hq
      have hs : 0 < √(q : ℝ) := Real.sqrt_pos.2 (by exact_mod_cast hp)
      obtain ⟨r, h1, h2⟩ := exists_rat_btwn (show √(q : ℝ) < √(q : ℝ) + √(q : ℝ) / 2 ^ 24 by linarith [div_pos hs (by norm_num : (0:ℝ) < 2 ^ 24)])
      exact ⟨r, fun _ => by rw [abs_of_pos (by linarith)]; linarith⟩
    · exact ⟨0, fun h => absurd h hq⟩
  choose f hf using key
  exact ⟨f, hf⟩

/-- The gain of the formula: the target over the root mean square of the samples that are not zero. -/
noncomputable def exactGain (win : List ℚ) (t : ℚ) : ℝ :=
  t / √((win.map fun x : ℚ => (x : ℝ) * x).sum / (win.countP fun x => decide (x ≠ 0) : Nat))

theorem exactGain_eq (win : List ℚ) (t : ℚ) : exactGain win t = t / √((sumSq win / filled win : ℚ) : ℝ) := by
  unfold exactGain filled
  have : (win.map fun x : ℚ => (x : ℝ) * x).sum = ((sumSq win : ℚ) : ℝ) := by
    unfold sumSq
    induction win with
    | nil => simp
    | cons v win ih => simp only [List.map_cons, List.sum_cons]; rw [ih]; push_cast; rfl
  rw [this]
  push_cast
  rfl

theorem count_num (win : List ℚ) : (win.map F32.num).countP (fun x => decide (x ≠ 0)) = filled win := by
  unfold filled
  rw [List.countP_map]
  congr 1
  funext x
  simp [F32.zero_def]

theorem gain_near (sqrtf : ℚ → ℚ) (hs : GoodSqrt sqrtf) (win : List ℚ) (t : ℚ) (c : Nat)
    (hm : ∀ v ∈ win, Moderate v) (hne : ∃ v ∈ win, v ≠ 0) (hl : win.length ≤ 2 ^ 20) (ht : 1 / 2 ^ 20 ≤ t) (ht' : t ≤ 2 ^ 20) :
    ∃ g : ℚ, rectangularF sqrtf (win.map F32.num) (F32.num t) c = .ok (F32.num g) ∧
      Near (win.length / 2 + 3) (g : ℝ) (exactGain win t) ∧
      (1 / 2 ^ 60 : ℝ) ≤ exactGain win t ∧ exactGain win t ≤ 2 ^ 60 := by
  have hpos : 1 ≤ filled win := by
    obtain ⟨v, h1, h2⟩ := hne
    exact List.countP_pos_iff.2 ⟨v, h1, by simpa using h2⟩
  have hfl : filled win ≤ win.length := List.countP_le_length
  obtain ⟨a, ha, hsa⟩ := summed_all win hm 0 0 0 ⟨isSingle_zero, by norm_num, .inl ⟨rfl, rfl⟩⟩ (by omega)
  rw [Nat.zero_add, zero_add] at hsa
  obtain ⟨hb1, hb2⟩ := sum_bounds win hm
  have hf1 : (1 : ℚ) ≤ filled win := by exact_mod_cast hpos
  have hf2 : (filled win : ℚ) ≤ 2 ^ 20 := by exact_mod_cast hfl.trans hl
  generalize hS : sumSq win = S at *
  have hS1 : (1 : ℚ) / 2 ^ 80 ≤ S := le_trans (by nlinarith [show (0 : ℚ) < 1 / 2 ^ 80 by norm_num]) hb1
  obtain ⟨hsing, _, hc⟩ := hsa
  obtain ⟨_, hn, _⟩ := hc.resolve_left fun h => by
    rw [h.2] at hS1; exact absurd hS1 (by norm_num)
  have hap : (0 : ℚ) < a := by exact_mod_cast hn.pos
  have hne0 : F32.num a ≠ 0 := by
    rw [F32.zero_def]; intro h; injection h with h; exact absurd h (ne_of_gt hap)
  unfold rectangularF
  simp only
  rw [F32.zero_def, ha, if_neg (by rw [← F32.zero_def]; exact hne0), ← F32.zero_def, count_num, Nat.max_eq_right hpos, exactGain_eq, hS]
  generalize hF : filled win = F at *
  have hcnt : F32.of (F : ℚ) = F32.num (F : ℚ) := by
    rw [fin_of (by rw [abs_of_nonneg (by linarith)]; exact hf2.trans (by norm_num))]
    have := rnd_int (n := (F : ℤ)) (by rw [abs_of_nonneg (by omega)]; omega)
    push_cast at this
    rw [this]
  have hF0 : (0 : ℚ) < F := by linarith
  have hF0' : (0 : ℝ) < F := by exact_mod_cast hF0
  -- the mean
  have hmean : Near win.length ((a / F : ℚ) : ℝ) ((S / F : ℚ) : ℝ) := by
    have := hn.mulc (inv_pos.2 hF0')
    push_cast
    rwa [inv_mul_eq_div, inv_mul_eq_div] at this
  have hm1 : (1 : ℚ) / 2 ^ 80 ≤ S / F := by rw [le_div_iff₀ hF0]; linarith
  have hm2 : S / F ≤ 2 ^ 80 := by rw [div_le_iff₀ hF0]; linarith
  obtain ⟨h1, h2⟩ := hmean.twoQ (by omega)
  have hn81 : (2 : ℚ) ^ (-126 : ℤ) ≤ 1 / 2 ^ 80 / 4 := by
    rw [zpow_neg, one_div, div_eq_mul_inv, ← mul_inv]
    exact inv_anti₀ (by norm_num) (by norm_num)
  have h80 : (2 : ℚ) ^ 80 * 2 ≤ 2 ^ 120 := by norm_num
  have hz : (0 : ℚ) < 1 / 2 ^ 80 := by norm_num
  have hq := (near_rnd (x := a / F) (hn81.trans (by linarith))).trans hmean
  have hdiv : F32.num a / F32.num (F : ℚ) = F32.num (rnd (a / F)) := by
    rw [F32.num_div _ _ (ne_of_gt hF0), fin_of (by rw [abs_of_nonneg (by linarith)]; linarith)]
  rw [hcnt, hdiv]
  generalize rnd (a / F) = q at *
  generalize hM : S / F = M at *
  obtain ⟨h3, h4⟩ := hq.twoQ (by omega)
  -- the root
  have hroot := (near_of (Real.sqrt_pos.2 hq.pos) (hs q (hn81.trans (by linarith)))).trans (hq.sqrt (b := win.length / 2 + 1) (by omega))
  have hsq : F32.sqrt sqrtf (F32.num q) = F32.num (sqrtf q) := by
    rw [F32.sqrt, if_neg (show ¬ q < 0 by linarith)]
  rw [hsq]
  generalize sqrtf q = r at *
  have hr1 : (1 / 2 ^ 40 : ℝ) ≤ √(M : ℝ) := by
    rw [Real.le_sqrt' (by norm_num)]
    have := (Rat.cast_le (K := ℝ)).2 hm1
    push_cast at this
    refine le_trans (le_of_eq ?_) this
    norm_num
  have hr2 : √(M : ℝ) ≤ 2 ^ 40 := by
    rw [Real.sqrt_le_left (by norm_num)]
    have := (Rat.cast_le (K := ℝ)).2 hm2
    push_cast at this
    refine le_trans this (le_of_eq ?_)
    norm_num
  generalize √(M : ℝ) = R at *
  have hR : 0 < R := hroot.1
  have ht0 : (0 : ℚ) < t := lt_of_lt_of_le (by norm_num) ht
  have ht0' : (0 : ℝ) < t := by exact_mod_cast ht0
  have htr : (1 / 2 ^ 20 : ℝ) ≤ t := by
    have := (Rat.cast_le (K := ℝ)).2 ht; push_cast at this; exact this
  have htr' : (t : ℝ) ≤ 2 ^ 20 := by
    have := (Rat.cast_le (K := ℝ)).2 ht'; push_cast at this; exact this
  have hE1 : (1 / 2 ^ 60 : ℝ) ≤ t / R := by
    rw [le_div_iff₀ hR]
    calc (1 / 2 ^ 60 : ℝ) * R ≤ 1 / 2 ^ 60 * 2 ^ 40 := mul_le_mul_of_nonneg_left hr2 (by norm_num)
      _ = 1 / 2 ^ 20 := by norm_num
      _ ≤ t := htr
  have hE2 : (t : ℝ) / R ≤ 2 ^ 60 := by
    rw [div_le_iff₀ hR]
    calc (t : ℝ) ≤ 2 ^ 20 := htr'
      _ = 2 ^ 60 * (1 / 2 ^ 40) := by norm_num
      _ ≤ 2 ^ 60 * R := mul_le_mul_of_nonneg_left hr1 (by norm_num)
  -- the quotient
  have hquot : Near (1 + (win.length / 2 + 1)) ((t / r : ℚ) : ℝ) (t / R) := by
    have := hroot.inv.mulc ht0'
    push_cast
    rwa [← div_eq_mul_inv, ← div_eq_mul_inv] at this
  obtain ⟨h5, h6⟩ := hquot.two (by omega)
  have h7 : (1 : ℚ) / 2 ^ 61 ≤ t / r := by
    have : (((1 : ℚ) / 2 ^ 61 : ℚ) : ℝ) ≤ ((t / r : ℚ) : ℝ) := by
      refine le_trans ?_ h5
      push_cast
      calc (1 : ℝ) / 2 ^ 61 = 1 / 2 ^ 60 / 2 := by norm_num
        _ ≤ t / R / 2 := by linarith
    exact_mod_cast this
  have h8 : t / r ≤ 2 ^ 61 := by
    have : ((t / r : ℚ) : ℝ) ≤ (((2 : ℚ) ^ 61 : ℚ) : ℝ) := by
      refine le_trans h6 ?_
      push_cast
      calc 2 * ((t : ℝ) / R) ≤ 2 * 2 ^ 60 := by linarith
        _ = 2 ^ 61 := by norm_num
    exact_mod_cast this
  have hr0 : r ≠ 0 := by
    have : (r : ℝ) ≠ 0 := ne_of_gt hroot.pos
    exact_mod_cast this
  refine ⟨rnd (t / r), ?_, ?_, hE1, hE2⟩
  · rw [F32.num_div _ _ hr0, fin_of (by
      rw [abs_of_nonneg (le_trans (by norm_num) h7)]
      exact h8.trans (by norm_num))]
  · have hn61 : (2 : ℚ) ^ (-126 : ℤ) ≤ 1 / 2 ^ 61 := by
      rw [zpow_neg, one_div]
      exact inv_anti₀ (by norm_num) (by norm_num)
    exact ((near_rnd (hn61.trans h7)).trans hquot).mono (by omega)

/-- C95, gain (partial): for every window of at most `2 ^ 20` samples that are zero or of magnitudes between `2 ^ -40` and
`2 ^ 40`, not all zero, and every target between `2 ^ -20` and `2 ^ 20`, the gain computed in single precision is a number
and it is that of the formula up to `n + 6` units of `2 ^ -24` for a window of `n` samples.

The full claim is for every window with a sample that is not zero: `C95_quiet_refuted`, `C95_loud_refuted`. -/
theorem C95_gain_partial (sqrtf : ℚ → ℚ) (hs : GoodSqrt sqrtf) (win : List ℚ) (t : ℚ) (c : Nat)
    (hm : ∀ v ∈ win, v = 0 ∨ (1 / 2 ^ 40 ≤ |v| ∧ |v| ≤ 2 ^ 40)) (hne : ∃ v ∈ win, v ≠ 0) (hl : win.length ≤ 2 ^ 20)
    (ht : 1 / 2 ^ 20 ≤ t) (ht' : t ≤ 2 ^ 20) :
    ∃ g : ℚ, rectangularF sqrtf (win.map F32.num) (F32.num t) c = .ok (F32.num g) ∧ 0 < g ∧
      |(g : ℝ) - exactGain win t| ≤ exactGain win t * ((win.length + 6) / 2 ^ 24) := by
  obtain ⟨g, h1, h2, _, _⟩ := gain_near sqrtf hs win t c hm hne hl ht ht'
  refine ⟨g, h1, by exact_mod_cast h2.pos, (h2.err (by omega)).trans ?_⟩
  refine mul_le_mul_of_nonneg_left ?_ h2.1.le
  rw [div_le_div_iff_of_pos_right (by norm_num)]
  have : ((2 * (win.length / 2 + 3) : Nat) : ℝ) ≤ ((win.length + 6 : Nat) : ℝ) := by exact_mod_cast (by omega)
  push_cast at this
  push_cast
  exact this

example : (∀ v ∈ [(0 : ℚ), 3, -1 / 4], v = 0 ∨ (1 / 2 ^ 40 ≤ |v| ∧ |v| ≤ 2 ^ 40)) ∧ (∃ v ∈ [(0 : ℚ), 3, -1 / 4], v ≠ 0) ∧
    [(0 : ℚ), 3, -1 / 4].length ≤ 2 ^ 20 ∧ (1 / 2 ^ 20 : ℚ) ≤ 1 ∧ (1 : ℚ) ≤ 2 ^ 20 ∧ ∃ f, GoodSqrt f := by
  refine ⟨?_, ⟨3, by simp, by norm_num⟩, by simp, by norm_num, by norm_num, goodSqrt_exists⟩
  intro v hv
  simp only [List.mem_cons, List.not_mem_nil, or_false] at hv
  rcases hv with rfl | rfl | rfl
  · exact .inl rfl
  · right; norm_num
  · right
    have : |(-1 / 4 : ℚ)| = 1 / 4 := by rw [abs_of_neg] <;> norm_num
    rw [this]; norm_num

/-- C95, gain control (partial): for every signal whose samples are zero or of magnitudes between `2 ^ -40` and `2 ^ 40` and
whose windows all have a sample that is not zero, gain control in single precision ends with numbers, and each is the sample
times the gain of the formula for its window, up to `w + 9` units of `2 ^ -24`.

The full claim is for every signal whose windows have samples that are not zero: `C95_quiet_refuted`, `C95_loud_refuted`. -/
theorem C95_agc_partial (sqrtf : ℚ → ℚ) (hs : GoodSqrt sqrtf) (s : List ℚ) (w : Nat) (t : ℚ)
    (hw : 2 * (w / 2) + 1 < s.length) (h64 : s.length < 2 ^ 64) (hw' : w < 2 ^ 20)
    (hm : ∀ v ∈ s, v = 0 ∨ (1 / 2 ^ 40 ≤ |v| ∧ |v| ≤ 2 ^ 40))
    (hne : ∀ j, j < s.length → ∃ v ∈ (s.take (min s.length (j + w / 2 + 1))).drop (j - w / 2), v ≠ 0)
    (ht : 1 / 2 ^ 20 ≤ t) (ht' : t ≤ 2 ^ 20) :
    ∃ out : List ℚ, agc (s.map F32.num) (rectangularF sqrtf) w (F32.num t) = .ok (out.map F32.num) ∧ out.length = s.length ∧
      ∀ (j : Nat) (x y : ℚ), s[j]? = some x → out[j]? = some y →
        |(y : ℝ) - x * exactGain ((s.take (min s.length (j + w / 2 + 1))).drop (j - w / 2)) t| ≤
          |(x : ℝ)| * exactGain ((s.take (min s.length (j + w / 2 + 1))).drop (j - w / 2)) t * ((w + 9) / 2 ^ 24) := by
  have hwin : ∀ j, ((s.take (min s.length (j + w / 2 + 1))).drop (j - w / 2)).length ≤ w + 1 := by
    intro j
    rw [List.length_drop, List.length_take]
    omega
  have hmw : ∀ j, ∀ v ∈ (s.take (min s.length (j + w / 2 + 1))).drop (j - w / 2), Moderate v := fun j v hv =>
    hm v (List.mem_of_mem_take (List.mem_of_mem_drop hv))
  have key : ∀ j, ∃ g : ℚ, j < s.length →
      rectangularF sqrtf (((s.take (min s.length (j + w / 2 + 1))).drop (j - w / 2)).map F32.num) (F32.num t) (min j (w / 2)) =
        .ok (F32.num g) ∧
      Near (((s.take (min s.length (j + w / 2 + 1))).drop (j - w / 2)).length / 2 + 3) (g : ℝ)
        (exactGain ((s.take (min s.length (j + w / 2 + 1))).drop (j - w / 2)) t) ∧
      (1 / 2 ^ 60 : ℝ) ≤ exactGain ((s.take (min s.length (j + w / 2 + 1))).drop (j - w / 2)) t ∧
      exactGain ((s.take (min s.length (j + w / 2 + 1))).drop (j - w / 2)) t ≤ 2 ^ 60 := by
    intro j
    by_cases hj : j < s.length
    · obtain ⟨g, h⟩ := gain_near sqrtf hs _ t (min j (w / 2)) (hmw j) (hne j hj) ((hwin j).trans (by omega)) ht ht'
      exact ⟨g, fun _ => h⟩
    · exact ⟨0, fun h => absurd h hj⟩
  choose g hg using key
  obtain ⟨out, h1, h2, h3⟩ := C40_window_partial (s.map F32.num) (rectangularF sqrtf) w (F32.num t) (by simpa using hw)
    (by simpa using h64) (fun j => F32.num (g j)) (by
      intro j hj
      rw [List.length_map] at hj ⊢
      rw [← List.map_take, ← List.map_drop]
      exact (hg j hj).1)
  rw [List.length_map] at h2
  have hbig : ∀ j (x : ℚ), s[j]? = some x → |x * g j| ≤ 2 ^ 120 := by
    intro j x hx
    have hj : j < s.length := (List.getElem?_eq_some_iff.1 hx).1
    obtain ⟨_, hn, _, hE⟩ := hg j hj
    have h4 := (hn.two (by have := hwin j; omega)).2
    have h5 : (g j : ℝ) ≤ 2 ^ 61 := h4.trans (by
      calc 2 * exactGain _ t ≤ 2 * 2 ^ 60 := by linarith
        _ = 2 ^ 61 := by norm_num)
    have h6 : g j ≤ 2 ^ 61 := by exact_mod_cast h5
    have h7 : 0 < g j := by exact_mod_cast hn.pos
    have h8 : |x| ≤ 2 ^ 40 := by
      rcases hm x (List.mem_of_getElem? hx) with h | h
      · rw [h]; norm_num
      · exact h.2
    rw [abs_mul, abs_of_pos h7]
    calc |x| * g j ≤ 2 ^ 40 * 2 ^ 61 := mul_le_mul h8 h6 h7.le (by norm_num)
      _ ≤ 2 ^ 120 := by norm_num
  have hout : out = ((List.range s.length).map fun j => rnd (s.getD j 0 * g j)).map F32.num := by
    refine List.ext_getElem? fun j => ?_
    by_cases hj : j < s.length
    · have h4 := h3 j (by simpa using hj)
      rw [h4]
      simp only [List.getElem_map, List.getElem?_map, List.getElem?_range hj, Option.map_some]
      have h5 : s.getD j 0 = s[j] := by simp [hj]
      rw [h5, F32.num_mul, fin_of (hbig j s[j] (List.getElem?_eq_getElem hj))]
    · rw [List.getElem?_eq_none (by omega), List.getElem?_eq_none (by simp; omega)]
  refine ⟨(List.range s.length).map fun j => rnd (s.getD j 0 * g j), by rw [h1, hout], by simp, ?_⟩
  intro j x y hx hy
  have hj : j < s.length := (List.getElem?_eq_some_iff.1 hx).1
  have hy' : y = rnd (x * g j) := by
    rw [List.getElem?_map, List.getElem?_range hj, Option.map_some, Option.some.injEq] at hy
    rw [← hy, List.getD_eq_getElem?_getD, hx]
    rfl
  obtain ⟨_, hn, hE1, _⟩ := hg j hj
  have hwj := hwin j
  generalize exactGain ((s.take (min s.length (j + w / 2 + 1))).drop (j - w / 2)) t = E at *
  generalize ((s.take (min s.length (j + w / 2 + 1))).drop (j - w / 2)).length = n at *
  have herr := hn.err (by omega)
  have h2n : (2 * ((n / 2 + 3 : Nat) : ℝ)) ≤ w + 7 := by
    have : ((2 * (n / 2 + 3) : Nat) : ℝ) ≤ ((w + 7 : Nat) : ℝ) := by exact_mod_cast (by omega)
    push_cast at this
    push_cast
    exact this
  have hw20 : (w : ℝ) ≤ 2 ^ 20 := by exact_mod_cast hw'.le
  have hEp : 0 < E := hn.1
  have hd : |(g j : ℝ) - E| ≤ E * ((w + 7) / 2 ^ 24) := herr.trans
    (mul_le_mul_of_nonneg_left (by rw [div_le_div_iff_of_pos_right (by norm_num)]; exact h2n) hEp.le)
  rw [hy']
  by_cases h0 : x = 0
  · rw [h0]; simp [rnd_zero]
  have hxm := (hm x (List.mem_of_getElem? hx)).resolve_left h0
  have hgp : (0 : ℚ) < g j := by exact_mod_cast hn.pos
  have hg61 : (1 / 2 ^ 61 : ℚ) ≤ g j := by
    have : (((1 / 2 ^ 61 : ℚ)) : ℝ) ≤ (g j : ℝ) := by
      refine le_trans ?_ (hn.two (by omega)).1
      push_cast
      calc (1 : ℝ) / 2 ^ 61 = 1 / 2 ^ 60 / 2 := by norm_num
        _ ≤ E / 2 := by linarith
    exact_mod_cast this
  have hnorm : (2 : ℚ) ^ (-126 : ℤ) ≤ |x * g j| := by
    rw [abs_mul, abs_of_pos hgp]
    have h9 : (2 : ℚ) ^ (-126 : ℤ) ≤ 1 / 2 ^ 40 * (1 / 2 ^ 61) := by
      rw [zpow_neg, one_div, one_div, ← mul_inv]
      exact inv_anti₀ (by norm_num) (by norm_num)
    exact h9.trans (mul_le_mul hxm.1 hg61 (by norm_num) (abs_nonneg _))
  have hr := (Rat.cast_le (K := ℝ)).2 (rnd_err hnorm)
  push_cast at hr
  rw [abs_mul, abs_of_pos (show (0 : ℝ) < g j by exact_mod_cast hgp)] at hr
  have hg2 : (g j : ℝ) ≤ 2 * E := (hn.two (by omega)).2
  have hx0 : (0 : ℝ) ≤ |(x : ℝ)| := abs_nonneg _
  calc |((rnd (x * g j) : ℚ) : ℝ) - x * E|
      = |(((rnd (x * g j) : ℚ) : ℝ) - x * g j) + x * (g j - E)| := by congr 1; ring
    _ ≤ |((rnd (x * g j) : ℚ) : ℝ) - x * g j| + |(x : ℝ) * (g j - E)| := abs_add_le _ _
    _ ≤ |(x : ℝ)| * (2 * E) / 2 ^ 24 + |(x : ℝ)| * (E * ((w + 7) / 2 ^ 24)) := by
        rw [abs_mul (x : ℝ)]
        refine add_le_add (hr.trans ?_) (mul_le_mul_of_nonneg_left hd hx0)
        rw [div_le_div_iff_of_pos_right (by norm_num)]
        exact mul_le_mul_of_nonneg_left hg2 hx0
    _ = |(x : ℝ)| * E * ((w + 9) / 2 ^ 24) := by ring

example : 2 * (3 / 2) + 1 < [(0 : ℚ), 3, -1, 2].length ∧
    ∀ j, j < [(0 : ℚ), 3, -1, 2].length →
      ∃ v ∈ ([(0 : ℚ), 3, -1, 2].take (min 4 (j + 3 / 2 + 1))).drop (j - 3 / 2), v ≠ 0 := by
  refine ⟨by decide, ?_⟩
  intro j hj
  have : j = 0 ∨ j = 1 ∨ j = 2 ∨ j = 3 := by simp at hj; omega
  rcases this with rfl | rfl | rfl | rfl
  · exact ⟨3, by simp, by norm_num⟩
  · exact ⟨3, by simp, by norm_num⟩
  · exact ⟨-1, by simp, by norm_num⟩
  · exact ⟨2, by simp, by norm_num⟩

/-! ### Quiet and loud signals -/

theorem single_small {x : ℚ} (h : IsSingle x) (h1 : |x| < 2 ^ (-149 : ℤ)) : x = 0 := by
  obtain ⟨n, e, _, he, rfl⟩ := h
  by_contra hne
  have hn : n ≠ 0 := by rintro rfl; simp at hne
  have h2 : (1 : ℚ) ≤ |(n : ℚ)| := by
    have : (1 : ℤ) ≤ |n| := Int.one_le_abs hn
    have : ((1 : ℤ) : ℚ) ≤ ((|n| : ℤ) : ℚ) := by exact_mod_cast this
    rwa [Int.cast_abs, Int.cast_one] at this
  rw [abs_mul, abs_of_pos (Verif.FP.two_zpow_pos e)] at h1
  have h3 : (2 : ℚ) ^ (-149 : ℤ) ≤ 2 ^ e := zpow_le_zpow_right₀ (by norm_num) he
  have h4 := Verif.FP.two_zpow_pos e
  generalize (2 : ℚ) ^ (-149 : ℤ) = b at *
  nlinarith

theorem sq_lost {x : ℚ} (h : |x| < 1 / 2 ^ 75) : rnd (x * x) = 0 := by
  have h1 : |x * x| < 2 ^ (-149 : ℤ) / 2 := by
    rw [abs_mul]
    have e1 : (2 : ℚ) ^ (-149 : ℤ) / 2 = 1 / 2 ^ 75 * (1 / 2 ^ 75) := by
      rw [zpow_neg]; norm_num
    rw [e1]
    exact mul_lt_mul'' h h (abs_nonneg _) (abs_nonneg _)
  refine single_small (isSingle_rnd _) ?_
  have h2 : |x * x| < (2 : ℚ) ^ ((-149 : ℤ) + 24) := by
    refine lt_trans h1 ?_
    rw [zpow_add₀ (by norm_num)]
    have : (0 : ℚ) < 2 ^ (-149 : ℤ) := by positivity
    have e2 : (2 : ℚ) ^ (24 : ℤ) = 2 ^ 24 := by norm_cast
    rw [e2]
    linarith
  have h3 := rnd_err_lt h2 (by norm_num)
  have h4 := abs_sub_abs_le_abs_sub (rnd (x * x)) (x * x)
  generalize (2 : ℚ) ^ (-149 : ℤ) = b at *
  linarith

/-- C95 fails for quiet signals: for every window of samples below `2 ^ -75` in magnitude, zero or not, the squares are all
rounded to zero and the call ends in a failed assertion. -/
theorem C95_quiet_refuted (sqrtf : ℚ → ℚ) (win : List ℚ) (t : F32) (c : Nat) (h : ∀ v ∈ win, |v| < 1 / 2 ^ 75) :
    rectangularF sqrtf (win.map F32.num) t c = .abort := by
  have h0 : F32.of 0 = 0 := by rw [fin_of (by norm_num), rnd_zero]; rfl
  have hfold : (win.map F32.num).foldl (fun amp x => amp + x * x) 0 = (0 : F32) := by
    induction win with
    | nil => rfl
    | cons v win ih =>
      rw [List.map_cons, List.foldl_cons, F32.num_mul, fin_of (by
        rw [abs_mul]
        have hv := (h v (List.mem_cons_self ..)).le
        have h1 : (1 : ℚ) / 2 ^ 75 ≤ 1 := by norm_num
        have := mul_le_mul (hv.trans h1) (hv.trans h1) (abs_nonneg _) (by norm_num)
        exact this.trans (by norm_num)), sq_lost (h v (List.mem_cons_self ..)), F32.zero_def, F32.num_add, add_zero, h0]
      exact ih fun u hu => h u (List.mem_cons_of_mem _ hu)
  unfold rectangularF
  simp only
  rw [if_pos hfold]

example : (∀ v ∈ [(1 : ℚ) / 2 ^ 76, -1 / 2 ^ 80], |v| < 1 / 2 ^ 75) ∧ ∃ v ∈ [(1 : ℚ) / 2 ^ 76, -1 / 2 ^ 80], v ≠ 0 := by
  refine ⟨?_, ⟨1 / 2 ^ 76, by simp, by norm_num⟩⟩
  intro v hv
  simp only [List.mem_cons, List.not_mem_nil, or_false] at hv
  rcases hv with rfl | rfl
  · rw [abs_of_pos (by norm_num)]; norm_num
  · rw [abs_of_neg (by norm_num)]; norm_num

theorem sq_loud {x : ℚ} (h : 2 ^ 64 ≤ |x|) : F32.num x * F32.num x = F32.inf false := by
  rw [F32.num_mul]
  have h1 : (2 : ℚ) ^ 128 ≤ x * x := by
    rw [← abs_mul_abs_self x]
    calc (2 : ℚ) ^ 128 = 2 ^ 64 * 2 ^ 64 := by norm_num
      _ ≤ |x| * |x| := mul_le_mul h h (by norm_num) (abs_nonneg _)
  have h2 : (2 : ℚ) ^ 128 ≤ rnd (x * x) := rnd_ge ⟨1, 128, by norm_num, by norm_num, by norm_num⟩ h1
  have h3 : (0 : ℚ) < x * x := lt_of_lt_of_le (by norm_num) h1
  unfold F32.of
  rw [if_neg (by rw [not_lt]; exact h2.trans (le_abs_self _)), decide_eq_false (not_lt.2 h3.le)]

theorem of_sq (x : ℚ) (hx : 0 ≤ x) : (∃ q, F32.of x = F32.num q ∧ 0 ≤ q) ∨ F32.of x = F32.inf false := by
  unfold F32.of
  by_cases h : |rnd x| < 2 ^ 128
  · rw [if_pos h]; exact .inl ⟨_, rfl, rnd_nonneg hx⟩
  · rw [if_neg h, decide_eq_false (not_lt.2 hx)]; exact .inr rfl

theorem fold_inf (win : List ℚ) : (win.map F32.num).foldl (fun amp x => amp + x * x) (F32.inf false) = F32.inf false := by
  induction win with
  | nil => rfl
  | cons v win ih =>
    rw [List.map_cons, List.foldl_cons, F32.num_mul]
    have : F32.inf false + F32.of (v * v) = F32.inf false := by
      rcases of_sq (v * v) (mul_self_nonneg v) with ⟨q, h, _⟩ | h <;> rw [h] <;> rfl
    rw [this]
    exact ih

theorem fold_loud (win : List ℚ) (h : ∃ v ∈ win, 2 ^ 64 ≤ |v|) : ∀ a : ℚ, 0 ≤ a →
    (win.map F32.num).foldl (fun amp x => amp + x * x) (F32.num a) = F32.inf false := by
  induction win with
  | nil => obtain ⟨v, hv, _⟩ := h; exact absurd hv (by simp)
  | cons v win ih =>
    intro a ha
    rw [List.map_cons, List.foldl_cons]
    by_cases hv : 2 ^ 64 ≤ |v|
    · rw [sq_loud hv]
      have : F32.num a + F32.inf false = F32.inf false := rfl
      rw [this]
      exact fold_inf win
    · obtain ⟨u, hu, hu'⟩ := h
      have hmem : u ∈ win := by
        rcases List.mem_cons.1 hu with rfl | h
        · exact absurd hu' hv
        · exact h
      rw [F32.num_mul]
      rcases of_sq (v * v) (mul_self_nonneg v) with ⟨q, h, hq⟩ | h
      · rw [h, F32.num_add]
        rcases of_sq (a + q) (by linarith) with ⟨r, h', hr⟩ | h'
        · rw [h']; exact ih ⟨u, hmem, hu'⟩ r hr
        · rw [h']; exact fold_inf win
      · rw [h]
        have : F32.num a + F32.inf false = F32.inf false := rfl
        rw [this]
        exact fold_inf win

theorem gain_loud (sqrtf : ℚ → ℚ) (win : List ℚ) (t : ℚ) (c : Nat) (h : ∃ v ∈ win, 2 ^ 64 ≤ |v|) (hl : win.length < 2 ^ 64) :
    rectangularF sqrtf (win.map F32.num) (F32.num t) c = .ok 0 := by
  unfold rectangularF
  simp only
  rw [F32.zero_def, fold_loud win h 0 le_rfl, if_neg (by simp), ← F32.zero_def, count_num]
  have hfl : filled win ≤ win.length := List.countP_le_length
  have hmax : max 1 (filled win) ≤ 2 ^ 64 := by omega
  have hone : 1 ≤ max 1 (filled win) := Nat.le_max_left _ _
  generalize max 1 (filled win) = n at *
  have hn : (n : ℚ) ≤ 2 ^ 64 := by exact_mod_cast hmax
  have h1 : (1 : ℚ) ≤ n := by exact_mod_cast hone
  rw [fin_of (by rw [abs_of_nonneg (by linarith)]; exact hn.trans (by norm_num))]
  have hr : (1 : ℚ) ≤ rnd n := rnd_ge isSingle_one h1
  have hd : F32.inf false / F32.num (rnd n) = F32.inf false := by
    show F32.div _ _ = _
    rw [F32.div, decide_eq_false (by linarith)]
    rfl
  rw [hd]
  have hs : F32.sqrt sqrtf (F32.inf false) = F32.inf false := by
    rw [F32.sqrt]; rfl
  rw [hs]
  rfl

/-- C95 fails for loud signals: when every window has a sample of `2 ^ 64` or more in magnitude, the sums of squares
overflow, the gains are zero and gain control silences the whole signal. -/
theorem C95_loud_refuted (sqrtf : ℚ → ℚ) (s : List ℚ) (w : Nat) (t : ℚ)
    (hw : 2 * (w / 2) + 1 < s.length) (h64 : s.length < 2 ^ 64)
    (hl : ∀ j, j < s.length → ∃ v ∈ (s.take (min s.length (j + w / 2 + 1))).drop (j - w / 2), 2 ^ 64 ≤ |v|) :
    agc (s.map F32.num) (rectangularF sqrtf) w (F32.num t) = .ok (List.replicate s.length 0) := by
  obtain ⟨out, h1, h2, h3⟩ := C40_window_partial (s.map F32.num) (rectangularF sqrtf) w (F32.num t) (by simpa using hw)
    (by simpa using h64) (fun _ => 0) (by
      intro j hj
      rw [List.length_map] at hj ⊢
      rw [← List.map_take, ← List.map_drop]
      exact gain_loud sqrtf _ t _ (hl j hj) (by rw [List.length_drop, List.length_take]; omega))
  rw [h1]
  congr 1
  rw [List.length_map] at h2
  refine List.ext_getElem? fun j => ?_
  by_cases hj : j < s.length
  · rw [h3 j (by simpa using hj), List.getElem?_replicate, if_pos hj, List.getElem_map, F32.zero_def, F32.num_mul, mul_zero,
      fin_of (by norm_num), rnd_zero]
  · rw [List.getElem?_eq_none (by omega), List.getElem?_eq_none (by simp; omega)]

example : ∀ j, j < [(2 : ℚ) ^ 64, 1, -2 ^ 65, 2 ^ 64].length →
    ∃ v ∈ ([(2 : ℚ) ^ 64, 1, -2 ^ 65, 2 ^ 64].take (min 4 (j + 3 / 2 + 1))).drop (j - 3 / 2), 2 ^ 64 ≤ |v| := by
  intro j hj
  have : j = 0 ∨ j = 1 ∨ j = 2 ∨ j = 3 := by simp at hj; omega
  have h1 : (2 : ℚ) ^ 64 ≤ |2 ^ 64| := le_abs_self _
  rcases this with rfl | rfl | rfl | rfl
  · exact ⟨2 ^ 64, by simp, h1⟩
  · exact ⟨2 ^ 64, by simp, h1⟩
  · exact ⟨2 ^ 64, by simp, h1⟩
  · exact ⟨2 ^ 64, by simp, h1⟩

end Verif.Signal
