import Verif.Props.GainSingle
import Verif.Props.Gain

/-!
# C103: the other gains in single precision
-/

namespace Verif.Signal
open Verif.FP32

/-! ### Sums of numbers of one sign -/

theorem near_signed {σ x : ℚ} (hσ : σ = 1 ∨ σ = -1) (h : (2 : ℚ) ^ (-126 : ℤ) ≤ σ * x) :
    Near 1 ((σ * rnd x : ℚ) : ℝ) ((σ * x : ℚ) : ℝ) := by
  have hp : (0 : ℚ) < σ * x := lt_of_lt_of_le (by positivity) h
  have hs : |σ| = 1 := by rcases hσ with rfl | rfl <;> norm_num
  have ha : |x| = σ * x := by
    rw [← abs_of_pos hp, abs_mul, hs, one_mul]
  have h1 := rnd_err (x := x) (by rwa [ha])
  rw [ha] at h1
  have h2 : |σ * rnd x - σ * x| ≤ σ * x / 2 ^ 24 := by rw [← mul_sub, abs_mul, hs, one_mul]; exact h1
  have h3 := (Rat.cast_le (K := ℝ)).2 h2
  refine near_of (by exact_mod_cast hp) ?_
  push_cast at h3 ⊢
  exact h3

/-- What has been added up after `k` terms, each known up to `p` roundings. -/
def Added (σ : ℚ) (p k : Nat) (a e : ℚ) : Prop :=
  e ≤ k * 2 ^ 80 ∧ ((a = 0 ∧ e = 0) ∨ (Near (p + k) ((σ * a : ℚ) : ℝ) e ∧ 1 / 2 ^ 100 ≤ e))

/-- A term: zero, or a number of the sign with `p` roundings. -/
def Term (σ : ℚ) (p : Nat) (z y : ℚ) : Prop :=
  (z = 0 ∧ y = 0) ∨ (Near p ((σ * z : ℚ) : ℝ) y ∧ 1 / 2 ^ 100 ≤ y ∧ y ≤ 2 ^ 80)

theorem near_weak {m : Nat} {x y : ℚ} (h : Near m (x : ℝ) y) (hm : m ≤ 2 ^ 23) : 0 < y ∧ y / 2 ≤ x ∧ x ≤ 2 * y :=
  ⟨by exact_mod_cast h.1, h.twoQ hm⟩

theorem small100 : (2 : ℚ) ^ (-126 : ℤ) ≤ 1 / 2 ^ 100 / 4 := by
  rw [zpow_neg, one_div, div_eq_mul_inv, ← mul_inv]
  exact inv_anti₀ (by norm_num) (by norm_num)

theorem added_step {σ : ℚ} (hσ : σ = 1 ∨ σ = -1) {p k : Nat} {a e z y : ℚ} (h : Added σ p k a e) (ht : Term σ p z y)
    (hk : p + k + 1 ≤ 2 ^ 23) :
    ∃ a', F32.num a + F32.num z = F32.num a' ∧ Added σ p (k + 1) a' (e + y) := by
  obtain ⟨he, hc⟩ := h
  have hs : |σ| = 1 := by rcases hσ with rfl | rfl <;> norm_num
  have hk' : (k : ℚ) + 1 ≤ 2 ^ 23 := by exact_mod_cast (by omega : k + 1 ≤ 2 ^ 23)
  have hz100 : (0 : ℚ) < 1 / 2 ^ 100 := by norm_num
  have h80 : (0 : ℚ) < 2 ^ 80 := by norm_num
  have hke : e ≤ 2 ^ 103 := by
    refine he.trans ?_
    rw [show (2 : ℚ) ^ 103 = 2 ^ 23 * 2 ^ 80 by norm_num]
    exact mul_le_mul_of_nonneg_right (by linarith) (by norm_num)
  have ha : 0 ≤ e ∧ 0 ≤ σ * a ∧ σ * a ≤ 2 * e := by
    rcases hc with ⟨h1, h2⟩ | ⟨h1, h2⟩
    · rw [h1, h2]; norm_num
    · obtain ⟨h3, h4, h5⟩ := near_weak h1 (by omega)
      exact ⟨h3.le, by linarith, h5⟩
  have hz : 0 ≤ y ∧ 0 ≤ σ * z ∧ σ * z ≤ 2 * y ∧ y ≤ 2 ^ 80 := by
    rcases ht with ⟨h1, h2⟩ | ⟨h1, h2, h3⟩
    · rw [h1, h2]; norm_num
    · obtain ⟨h3, h4, h5⟩ := near_weak h1 (by omega)
      exact ⟨h3.le, by linarith, h5, by assumption⟩
  have habs : |a + z| = σ * (a + z) := by
    rw [← abs_of_nonneg (show 0 ≤ σ * (a + z) by rw [mul_add]; linarith), abs_mul, hs, one_mul]
  have hsum : F32.num a + F32.num z = F32.num (rnd (a + z)) := by
    rw [F32.num_add, fin_of (by
      rw [habs, mul_add]
      have : (2 : ℚ) * 2 ^ 103 + 2 * 2 ^ 80 ≤ 2 ^ 120 := by norm_num
      linarith)]
  refine ⟨_, hsum, by push_cast; linarith, ?_⟩
  by_cases h0 : e + y = 0
  · have h1 : σ * a = 0 := by linarith
    have h2 : σ * z = 0 := by linarith
    have hne : σ ≠ 0 := by rcases hσ with rfl | rfl <;> norm_num
    have h3 := (mul_eq_zero.1 h1).resolve_left hne
    have h4 := (mul_eq_zero.1 h2).resolve_left hne
    exact .inl ⟨by rw [h3, h4, add_zero, rnd_zero], h0⟩
  · refine .inr ?_
    have hnear : Near (p + k) ((σ * (a + z) : ℚ) : ℝ) ((e + y : ℚ) : ℝ) ∧ 1 / 2 ^ 100 ≤ e + y := by
      rcases hc with ⟨h1, h2⟩ | ⟨h1, h2⟩
      · rcases ht with ⟨h3, h4⟩ | ⟨h3, h4, _⟩
        · exact absurd (by rw [h2, h4, add_zero]) h0
        · rw [h1, h2, zero_add, zero_add]
          exact ⟨h3.mono (by omega), h4⟩
      · rcases ht with ⟨h3, h4⟩ | ⟨h3, h4, _⟩
        · rw [h3, h4, add_zero, add_zero]
          exact ⟨h1, h2⟩
        · refine ⟨?_, by linarith⟩
          have := h1.add (h3.mono (show p ≤ p + k by omega))
          push_cast at this ⊢
          rw [mul_add]
          exact this
    refine ⟨?_, hnear.2⟩
    have hr := near_signed hσ (x := a + z) (small100.trans (by
      have := (near_weak hnear.1 (by omega)).2.1
      linarith [hnear.2]))
    have := hr.trans hnear.1
    rwa [show 1 + (p + k) = p + (k + 1) by omega] at this

/-! ### From the sum to the gain -/

theorem cnt_exact {F : Nat} (h : F ≤ 2 ^ 20) : F32.of (F : ℚ) = F32.num (F : ℚ) := by
  have hf2 : (F : ℚ) ≤ 2 ^ 20 := by exact_mod_cast h
  have hf0 : (0 : ℚ) ≤ F := by exact_mod_cast Nat.zero_le F
  rw [fin_of (by rw [abs_of_nonneg hf0]; exact hf2.trans (by norm_num))]
  have := rnd_int (n := (F : ℤ)) (by rw [abs_of_nonneg (by omega)]; omega)
  push_cast at this
  rw [this]

/-- A quotient of two numbers known up to roundings. -/
theorem quot_near {m : Nat} {t a : ℚ} {y : ℝ} (hn : Near m (a : ℝ) y) (hm : m ≤ 2 ^ 23) (ht : 1 / 2 ^ 20 ≤ t) (ht' : t ≤ 2 ^ 20)
    (h1 : (1 / 2 ^ 60 : ℝ) ≤ y) (h2 : y ≤ 2 ^ 60) :
    ∃ g : ℚ, F32.num t / F32.num a = F32.num g ∧ Near (m + 1) (g : ℝ) (t / y) ∧ (1 / 2 ^ 80 : ℝ) ≤ t / y ∧ t / y ≤ 2 ^ 80 := by
  have hy := hn.1
  have ha : (0 : ℚ) < a := by exact_mod_cast hn.pos
  have ht0 : (0 : ℚ) < t := lt_of_lt_of_le (by norm_num) ht
  have ht0' : (0 : ℝ) < t := by exact_mod_cast ht0
  have htr : (1 / 2 ^ 20 : ℝ) ≤ t := by
    have := (Rat.cast_le (K := ℝ)).2 ht; push_cast at this; exact this
  have htr' : (t : ℝ) ≤ 2 ^ 20 := by
    have := (Rat.cast_le (K := ℝ)).2 ht'; push_cast at this; exact this
  have hE1 : (1 / 2 ^ 80 : ℝ) ≤ t / y := by
    rw [le_div_iff₀ hy]
    calc (1 / 2 ^ 80 : ℝ) * y ≤ 1 / 2 ^ 80 * 2 ^ 60 := mul_le_mul_of_nonneg_left h2 (by norm_num)
      _ = 1 / 2 ^ 20 := by norm_num
      _ ≤ t := htr
  have hE2 : (t : ℝ) / y ≤ 2 ^ 80 := by
    rw [div_le_iff₀ hy]
    calc (t : ℝ) ≤ 2 ^ 20 := htr'
      _ = 2 ^ 80 * (1 / 2 ^ 60) := by norm_num
      _ ≤ 2 ^ 80 * y := mul_le_mul_of_nonneg_left h1 (by norm_num)
  have hquot : Near m ((t / a : ℚ) : ℝ) (t / y) := by
    have := hn.inv.mulc ht0'
    push_cast
    rwa [← div_eq_mul_inv, ← div_eq_mul_inv] at this
  obtain ⟨h5, h6⟩ := hquot.two hm
  have h7 : (1 : ℚ) / 2 ^ 80 / 2 ≤ t / a := by
    have : (((1 : ℚ) / 2 ^ 80 / 2 : ℚ) : ℝ) ≤ ((t / a : ℚ) : ℝ) := by
      refine le_trans ?_ h5
      push_cast
      linarith
    exact_mod_cast this
  have h8 : t / a ≤ 2 * 2 ^ 80 := by
    have : ((t / a : ℚ) : ℝ) ≤ ((2 * (2 : ℚ) ^ 80 : ℚ) : ℝ) := by
      refine le_trans h6 ?_
      push_cast
      linarith
    exact_mod_cast this
  have hz : (0 : ℚ) < 1 / 2 ^ 80 := by norm_num
  refine ⟨rnd (t / a), ?_, ?_, hE1, hE2⟩
  · rw [F32.num_div _ _ (ne_of_gt ha), fin_of (by
      rw [abs_of_nonneg (by linarith)]
      exact h8.trans (by norm_num))]
  · have hle : (1 : ℚ) / 2 ^ 100 / 4 ≤ 1 / 2 ^ 80 / 2 := by norm_num
    have := (near_rnd (small100.trans (hle.trans h7))).trans hquot
    rwa [Nat.add_comm] at this

/-- The mean of a sum known up to roundings. -/
theorem mean_near {m F : Nat} {a S : ℚ} (hn : Near m (a : ℝ) S) (hm : m ≤ 2 ^ 22) (hS : 1 / 2 ^ 100 ≤ S) (hS' : S ≤ 2 ^ 103)
    (hF : 1 ≤ F) (hF' : F ≤ 2 ^ 20) :
    ∃ q : ℚ, F32.num a / F32.of (F : ℚ) = F32.num q ∧ Near (m + 1) (q : ℝ) ((S / F : ℚ) : ℝ) := by
  have hf1 : (1 : ℚ) ≤ F := by exact_mod_cast hF
  have hf2 : (F : ℚ) ≤ 2 ^ 20 := by exact_mod_cast hF'
  have hF0 : (0 : ℚ) < F := by linarith
  have hF0' : (0 : ℝ) < F := by exact_mod_cast hF0
  have hmean : Near m ((a / F : ℚ) : ℝ) ((S / F : ℚ) : ℝ) := by
    have := hn.mulc (inv_pos.2 hF0')
    push_cast
    rwa [inv_mul_eq_div, inv_mul_eq_div] at this
  have hm1 : (1 : ℚ) / 2 ^ 100 / 2 ^ 20 ≤ S / F := div_le_div₀ (by linarith [show (0 : ℚ) < 1 / 2 ^ 100 by norm_num]) hS hF0 hf2
  have hm2 : S / F ≤ 2 ^ 103 := by
    rw [div_le_iff₀ hF0]
    nlinarith [show (0 : ℚ) < 2 ^ 103 by norm_num]
  obtain ⟨h0, h1, h2⟩ := near_weak hmean (by omega)
  have hsm : (2 : ℚ) ^ (-126 : ℤ) ≤ 1 / 2 ^ 100 / 2 ^ 20 / 2 := by
    rw [zpow_neg, one_div, div_eq_mul_inv, div_eq_mul_inv, ← mul_inv, ← mul_inv]
    exact inv_anti₀ (by norm_num) (by norm_num)
  refine ⟨rnd (a / F), ?_, ?_⟩
  · rw [cnt_exact hF', F32.num_div _ _ (ne_of_gt hF0), fin_of (by
      rw [abs_of_nonneg (by linarith)]
      have : (2 : ℚ) * 2 ^ 103 ≤ 2 ^ 120 := by norm_num
      linarith)]
  · have := (near_rnd (x := a / F) (hsm.trans (by linarith))).trans hmean
    rwa [Nat.add_comm] at this

/-- The gain of a mean square known up to roundings. -/
theorem root_gain {sqrtf : ℚ → ℚ} (hs : GoodSqrt sqrtf) {m F : Nat} {a S t : ℚ} (hn : Near m (a : ℝ) S) (hm : m ≤ 2 ^ 22)
    (hS : 1 / 2 ^ 100 ≤ S) (hS' : S ≤ 2 ^ 80) (hF : 1 ≤ F) (hF' : F ≤ 2 ^ 20) (ht : 1 / 2 ^ 20 ≤ t) (ht' : t ≤ 2 ^ 20) :
    ∃ g : ℚ, F32.num t / F32.sqrt sqrtf (F32.num a / F32.of (F : ℚ)) = F32.num g ∧
      Near (m / 2 + 3) (g : ℝ) (t / √((S / F : ℚ) : ℝ)) ∧
      (1 / 2 ^ 80 : ℝ) ≤ t / √((S / F : ℚ) : ℝ) ∧ t / √((S / F : ℚ) : ℝ) ≤ 2 ^ 80 := by
  obtain ⟨q, h1, hq⟩ := mean_near hn hm hS (hS'.trans (by norm_num)) hF hF'
  have hf1 : (1 : ℚ) ≤ F := by exact_mod_cast hF
  have hf2 : (F : ℚ) ≤ 2 ^ 20 := by exact_mod_cast hF'
  have hF0 : (0 : ℚ) < F := by linarith
  have hm1 : (1 : ℚ) / 2 ^ 100 / 2 ^ 20 ≤ S / F := div_le_div₀ (by linarith [show (0 : ℚ) < 1 / 2 ^ 100 by norm_num]) hS hF0 hf2
  have hm2 : S / F ≤ 2 ^ 80 := by
    rw [div_le_iff₀ hF0]
    nlinarith [show (0 : ℚ) < 2 ^ 80 by norm_num]
  rw [h1]
  generalize S / (F : ℚ) = M at *
  obtain ⟨h0, h3, h4⟩ := near_weak hq (by omega)
  have hsm : (2 : ℚ) ^ (-126 : ℤ) ≤ 1 / 2 ^ 100 / 2 ^ 20 / 2 := by
    rw [zpow_neg, one_div, div_eq_mul_inv, div_eq_mul_inv, ← mul_inv, ← mul_inv]
    exact inv_anti₀ (by norm_num) (by norm_num)
  have hroot := (near_of (Real.sqrt_pos.2 hq.pos) (hs q (hsm.trans (by linarith)))).trans (hq.sqrt (b := m / 2 + 1) (by omega))
  have hsq : F32.sqrt sqrtf (F32.num q) = F32.num (sqrtf q) := by
    rw [F32.sqrt, if_neg (show ¬ q < 0 by linarith)]
  rw [hsq]
  have hr1 : (1 / 2 ^ 60 : ℝ) ≤ √(M : ℝ) := by
    rw [Real.le_sqrt' (by norm_num)]
    have := (Rat.cast_le (K := ℝ)).2 hm1
    push_cast at this
    refine le_trans ?_ this
    norm_num
  have hr2 : √(M : ℝ) ≤ 2 ^ 60 := by
    rw [Real.sqrt_le_left (by norm_num)]
    have := (Rat.cast_le (K := ℝ)).2 hm2
    push_cast at this
    refine le_trans this ?_
    norm_num
  obtain ⟨g, h5, h6, h7, h8⟩ := quot_near hroot (by omega) ht ht' hr1 hr2
  exact ⟨g, h5, h6.mono (by omega), h7, h8⟩

/-! ### The triangle -/

theorem near_half {h : Nat} {x y : ℝ} (hy : 0 < y) (hh : h ≤ 2 ^ 24) (he : |x - y| ≤ y * h / 2 ^ 25) : Near h x y := by
  have hg : 1 + (h : ℝ) * (1 / 2 ^ 24) ≤ gfac ^ h := by
    have h1 : 1 + 1 / 2 ^ 24 ≤ gfac := by unfold gfac; rw [le_div_iff₀ (by norm_num)]; norm_num
    calc 1 + (h : ℝ) * (1 / 2 ^ 24) ≤ (1 + 1 / 2 ^ 24) ^ h := one_add_mul_le_pow (by norm_num) h
      _ ≤ gfac ^ h := pow_le_pow_left₀ (by norm_num) h1 h
  have hh' : (h : ℝ) ≤ 2 ^ 24 := by exact_mod_cast hh
  have h0 : (0 : ℝ) ≤ h := by exact_mod_cast Nat.zero_le h
  obtain ⟨e1, e2⟩ := abs_le.1 he
  have hx : y * (1 - h / 2 ^ 25) ≤ x := by
    have : y * (1 - h / 2 ^ 25) = y - y * h / 2 ^ 25 := by ring
    linarith
  have hx2 : x ≤ y * (1 + h / 2 ^ 25) := by
    have : y * (1 + h / 2 ^ 25) = y + y * h / 2 ^ 25 := by ring
    linarith
  have hd : (h : ℝ) * (1 / 2 ^ 24) = 2 * (h / 2 ^ 25) := by ring
  have hδ : (h : ℝ) / 2 ^ 25 ≤ 1 / 2 := by
    rw [div_le_iff₀ (by norm_num)]
    refine hh'.trans ?_
    norm_num
  have hδ0 : (0 : ℝ) ≤ h / 2 ^ 25 := by positivity
  rw [hd] at hg
  unfold Near
  generalize (h : ℝ) / 2 ^ 25 = δ at *
  generalize gfac ^ h = G at *
  refine ⟨hy, ?_, ?_⟩
  · have h1 : y * 1 ≤ y * ((1 - δ) * (1 + 2 * δ)) := mul_le_mul_of_nonneg_left (by nlinarith) hy.le
    have h2 : (1 - δ) * (1 + 2 * δ) ≤ (1 - δ) * G := mul_le_mul_of_nonneg_left hg (by linarith)
    have h3 := mul_le_mul_of_nonneg_left h2 hy.le
    have h4 : y * (1 - δ) * G ≤ x * G := mul_le_mul_of_nonneg_right hx (by linarith)
    have h5 : y * ((1 - δ) * G) = y * (1 - δ) * G := by ring
    linarith
  · exact hx2.trans (mul_le_mul_of_nonneg_left (by linarith) hy.le)

/-- The weight of the triangle at distance `d`, in floats. -/
theorem weight_near {d h : Nat} (hd : d < h) (hh : h ≤ 2 ^ 20) :
    ∃ w : ℚ, (1 : F32) - F32.of (d : ℚ) / F32.of (h : ℚ) = F32.num w ∧ Near (h + 1) (w : ℝ) ((1 - d / h : ℚ) : ℝ) := by
  have hh0 : (0 : ℚ) < h := by exact_mod_cast (by omega : 0 < h)
  have hd' : (d : ℚ) + 1 ≤ h := by exact_mod_cast hd
  have hd0 : (0 : ℚ) ≤ d := by exact_mod_cast Nat.zero_le d
  have hh2 : (h : ℚ) ≤ 2 ^ 20 := by exact_mod_cast hh
  have hq0 : 0 ≤ (d : ℚ) / h := div_nonneg hd0 hh0.le
  have hq1 : (1 : ℚ) / h ≤ 1 - d / h := by
    rw [le_sub_iff_add_le, ← add_div, div_le_one hh0]; linarith
  have hq2 : (d : ℚ) / h < 1 := by rw [div_lt_one hh0]; linarith
  have herr : |rnd ((d : ℚ) / h) - d / h| ≤ 1 / 2 ^ 25 := by
    by_cases h0 : (d : ℚ) / h = 0
    · rw [h0, rnd_zero]; norm_num
    have h1 := rnd_err_ulp h0
    have h2 := ulpExp_le (x := (d : ℚ) / h) (E := -24) (by rw [abs_of_nonneg hq0]; simpa using hq2) (by norm_num) h0
    have h3 : (2 : ℚ) ^ ulpExp ((d : ℚ) / h) ≤ 2 ^ (-24 : ℤ) := zpow_le_zpow_right₀ (by norm_num) h2
    have h4 : (2 : ℚ) ^ (-24 : ℤ) / 2 = 1 / 2 ^ 25 := by norm_num
    linarith
  have hb : |rnd ((d : ℚ) / h)| ≤ 1 := rnd_abs_le isSingle_one (by rw [abs_of_nonneg hq0]; exact hq2.le)
  rw [cnt_exact (by omega), cnt_exact hh, F32.num_div _ _ (ne_of_gt hh0), fin_of (by
    rw [abs_of_nonneg hq0]; exact hq2.le.trans (by norm_num)), F32.one_def, F32.num_sub]
  generalize hr : rnd ((d : ℚ) / h) = r at *
  generalize hqq : (d : ℚ) / h = q at *
  have hn : Near h ((1 - r : ℚ) : ℝ) ((1 - q : ℚ) : ℝ) := by
    have hpos : (0 : ℚ) < 1 - q := by linarith
    refine near_half (by exact_mod_cast hpos) (by omega) ?_
    have : |(1 - r) - (1 - q)| ≤ (1 - q) * h / 2 ^ 25 := by
      rw [show (1 - r) - (1 - q) = -(r - q) by ring, abs_neg]
      refine herr.trans ?_
      rw [div_le_div_iff_of_pos_right (by norm_num)]
      rw [div_le_iff₀ hh0] at hq1
      exact hq1
    have h2 := (Rat.cast_le (K := ℝ)).2 this
    push_cast at h2 ⊢
    exact h2
  obtain ⟨h1, h2, h3⟩ := near_weak hn (by omega)
  have hinv : (1 : ℚ) / 2 ^ 20 ≤ 1 / h := one_div_le_one_div_of_le hh0 hh2
  refine ⟨rnd (1 - r), ?_, ?_⟩
  · refine fin_of ?_
    obtain ⟨h4, h5⟩ := abs_le.1 hb
    rw [abs_le]
    have : (2 : ℚ) ≤ 2 ^ 120 := by norm_num
    constructor <;> linarith
  · have hsm : (2 : ℚ) ^ (-126 : ℤ) ≤ 1 / 2 ^ 20 / 2 := by
      rw [zpow_neg, one_div, div_eq_mul_inv, ← mul_inv]
      exact inv_anti₀ (by norm_num) (by norm_num)
    have := (near_rnd (x := 1 - r) (hsm.trans (by linarith))).trans hn
    rwa [Nat.add_comm] at this

theorem Near.mul {m k : Nat} {x y z w : ℝ} (h1 : Near m x y) (h2 : Near k z w) : Near (m + k) (x * z) (y * w) := by
  have := (h2.mulc h1.1)
  have h3 := (h1.mulc h2.pos)
  rw [mul_comm z x, mul_comm z y] at h3
  exact h3.trans this

/-- Samples of the size of data: zero, or magnitudes between `2 ^ -30` and `2 ^ 30`. -/
def Usual (v : ℚ) : Prop := v = 0 ∨ (1 / 2 ^ 30 ≤ |v| ∧ |v| ≤ 2 ^ 30)

theorem tri_term {x : ℚ} (hx : Usual x) {d h : Nat} (hd : d ≤ h) (h0 : 1 ≤ h) (hh : h ≤ 2 ^ 20) :
    ∃ z : ℚ, (F32.num x * (1 - F32.of (d : ℚ) / F32.of (h : ℚ))) * (F32.num x * (1 - F32.of (d : ℚ) / F32.of (h : ℚ))) = F32.num z ∧
      Term 1 (2 * h + 5) z ((x * (1 - d / h)) * (x * (1 - d / h))) := by
  have hh0 : (0 : ℚ) < h := by exact_mod_cast h0
  have hzero : F32.num 0 * F32.num 0 = F32.num 0 := by
    rw [F32.num_mul, fin_of (by norm_num), mul_zero, rnd_zero]
  rcases Nat.lt_or_eq_of_le hd with hd | rfl
  · obtain ⟨w, hw, hn⟩ := weight_near hd hh
    rw [hw]
    have hd' : (d : ℚ) + 1 ≤ h := by exact_mod_cast hd
    have hd0 : (0 : ℚ) ≤ d := by exact_mod_cast Nat.zero_le d
    have hq0 : 0 ≤ (d : ℚ) / h := div_nonneg hd0 hh0.le
    have hq1 : (1 : ℚ) / h ≤ 1 - d / h := by
      rw [le_sub_iff_add_le, ← add_div, div_le_one hh0]; linarith
    have hinv : (1 : ℚ) / 2 ^ 20 ≤ 1 / h := one_div_le_one_div_of_le hh0 (by exact_mod_cast hh)
    generalize hW : (1 : ℚ) - d / h = W at *
    have hW1 : (1 : ℚ) / 2 ^ 20 ≤ W := hinv.trans hq1
    have hW2 : W ≤ 1 := by linarith
    by_cases hx0 : x = 0
    · subst hx0
      refine ⟨0, ?_, .inl ⟨rfl, by ring⟩⟩
      rw [F32.num_mul, zero_mul, fin_of (by norm_num), rnd_zero, hzero]
    obtain ⟨hx1, hx2⟩ := hx.resolve_left hx0
    obtain ⟨σ, hσ, hσx⟩ : ∃ σ : ℚ, (σ = 1 ∨ σ = -1) ∧ σ * x = |x| := by
      rcases le_or_gt 0 x with h | h
      · exact ⟨1, .inl rfl, by rw [abs_of_nonneg h, one_mul]⟩
      · exact ⟨-1, .inr rfl, by rw [abs_of_neg h]; ring⟩
    have hxp : 0 < |x| := abs_pos.2 hx0
    obtain ⟨hw0, hw1, hw2⟩ := near_weak hn (by omega)
    have hwp : 0 < w := by linarith
    -- the scaled sample
    have habs : |x * w| = |x| * w := by rw [abs_mul, abs_of_pos hwp]
    have hup : |x| * w ≤ 2 ^ 30 * 2 := mul_le_mul hx2 (by linarith) hwp.le (by norm_num)
    have hlow : (1 : ℚ) / 2 ^ 30 * (1 / 2 ^ 20 / 2) ≤ |x| * w :=
      mul_le_mul hx1 (by linarith) (by norm_num) hxp.le
    have hm1 : F32.num x * F32.num w = F32.num (rnd (x * w)) := by
      rw [F32.num_mul, fin_of (by rw [habs]; exact hup.trans (by norm_num))]
    have hσw : σ * (x * w) = |x| * w := by rw [← mul_assoc, hσx]
    have hn1 := near_signed hσ (x := x * w) (by
      rw [hσw]
      refine le_trans ?_ hlow
      rw [zpow_neg]
      refine le_trans (inv_anti₀ (b := (2 : ℚ) ^ 51) (by norm_num) (by norm_num)) (by norm_num))
    have hn2 : Near (h + 1) ((σ * (x * w) : ℚ) : ℝ) ((|x| * W : ℚ) : ℝ) := by
      rw [hσw]
      push_cast
      have := hn.mulc (c := ((|x| : ℚ) : ℝ)) (by exact_mod_cast hxp)
      push_cast at this
      exact this
    have hn3 := hn1.trans hn2
    generalize hz : rnd (x * w) = z at *
    have hn4 := hn3.mul hn3
    have e1 : ((σ * z : ℚ) : ℝ) * ((σ * z : ℚ) : ℝ) = ((z * z : ℚ) : ℝ) := by
      have : (σ * z) * (σ * z) = z * z := by rcases hσ with rfl | rfl <;> ring
      exact_mod_cast this
    have e2 : ((|x| * W : ℚ) : ℝ) * ((|x| * W : ℚ) : ℝ) = (((x * W) * (x * W) : ℚ) : ℝ) := by
      have : (|x| * W) * (|x| * W) = (x * W) * (x * W) := by
        rw [show (|x| * W) * (|x| * W) = (|x| * |x|) * (W * W) by ring, abs_mul_abs_self]; ring
      exact_mod_cast this
    rw [e1, e2] at hn4
    have hsq : (x * W) * (x * W) = (|x| * W) * (|x| * W) := by exact_mod_cast e2.symm
    have hy1 : (1 : ℚ) / 2 ^ 30 * (1 / 2 ^ 20) ≤ |x| * W := mul_le_mul hx1 hW1 (by norm_num) hxp.le
    have hy2 : |x| * W ≤ 2 ^ 30 * 1 := mul_le_mul hx2 hW2 (by linarith) (by norm_num)
    have hY1 : (1 : ℚ) / 2 ^ 100 ≤ (x * W) * (x * W) := by
      rw [hsq]
      calc (1 : ℚ) / 2 ^ 100 = (1 / 2 ^ 30 * (1 / 2 ^ 20)) * (1 / 2 ^ 30 * (1 / 2 ^ 20)) := by norm_num
        _ ≤ _ := mul_le_mul hy1 hy1 (by norm_num) (le_trans (by norm_num) hy1)
    have hY2 : (x * W) * (x * W) ≤ 2 ^ 60 := by
      rw [hsq]
      calc (|x| * W) * (|x| * W) ≤ (2 ^ 30 * 1) * (2 ^ 30 * 1) :=
            mul_le_mul hy2 hy2 (le_trans (by norm_num) hy1) (by norm_num)
        _ = 2 ^ 60 := by norm_num
    obtain ⟨k1, k2, k3⟩ := near_weak hn4 (by omega)
    have hr := near_rnd (x := z * z) (small100.trans (by linarith))
    refine ⟨rnd (z * z), ?_, .inr ⟨?_, hY1, hY2.trans (by norm_num)⟩⟩
    · rw [hm1, F32.num_mul, fin_of (by
        rw [abs_of_nonneg (mul_self_nonneg z)]
        have : (2 : ℚ) * 2 ^ 60 ≤ 2 ^ 120 := by norm_num
        linarith)]
    · rw [one_mul]
      exact (hr.trans hn4).mono (by omega)
  · have hw : (1 : F32) - F32.of (d : ℚ) / F32.of (d : ℚ) = F32.num 0 := by
      rw [cnt_exact hh, F32.num_div _ _ (ne_of_gt hh0), div_self (ne_of_gt hh0), fin_of (by norm_num), rnd_single isSingle_one,
        F32.one_def, F32.num_sub, sub_self, fin_of (by norm_num), rnd_zero]
    refine ⟨0, ?_, .inl ⟨rfl, by rw [div_self (ne_of_gt hh0)]; ring⟩⟩
    rw [hw, F32.num_mul, mul_zero, fin_of (by norm_num), rnd_zero, hzero]

/-- The weights of the triangle: one at the centre, zero at the farther end of the window. -/
def triWeight (n c j : Nat) : ℚ := 1 - |(j : ℚ) - c| / (max c (n - 1 - c) : Nat)

/-- The mean of the weighted squares over the samples that are not zero. -/
def triMean (win : List ℚ) (c : Nat) : ℚ :=
  ((List.range win.length).map fun j => (win.getD j 0 * triWeight win.length c j) * (win.getD j 0 * triWeight win.length c j)).sum /
    (win.countP fun x => decide (x ≠ 0) : Nat)

theorem tri_near (sqrtf : ℚ → ℚ) (hs : GoodSqrt sqrtf) (win : List ℚ) (t : ℚ) (c : Nat) (hm : ∀ v ∈ win, Usual v)
    (hc : c < win.length) (h2 : 2 ≤ win.length) (hl : win.length ≤ 2 ^ 20)
    (hne : ∃ j x, win[j]? = some x ∧ x ≠ 0 ∧ triWeight win.length c j ≠ 0) (ht : 1 / 2 ^ 20 ≤ t) (ht' : t ≤ 2 ^ 20) :
    ∃ g : ℚ, triangularF sqrtf (win.map F32.num) (F32.num t) c = .ok (F32.num g) ∧
      Near (max c (win.length - 1 - c) + win.length / 2 + 6) (g : ℝ) (t / √(triMean win c : ℝ)) ∧
      (1 / 2 ^ 80 : ℝ) ≤ t / √(triMean win c : ℝ) ∧ t / √(triMean win c : ℝ) ≤ 2 ^ 80 := by
  obtain ⟨h, hh⟩ : ∃ h, h = max c (win.length - 1 - c) := ⟨_, rfl⟩
  have hh1 : 1 ≤ h := by omega
  have hh2 : h ≤ 2 ^ 20 := by omega
  let f : Nat → ℚ := fun j => (win.getD j 0 * triWeight win.length c j) * (win.getD j 0 * triWeight win.length c j)
  let P : Nat → F32 → Prop := fun k amp => ∃ a, amp = F32.num a ∧ Added 1 (2 * h + 5) k a ((List.range k).map f).sum ∧
    ((List.range k).map f).sum ≤ k * 2 ^ 60
  unfold triangularF
  rw [List.length_map, if_neg (by omega), if_neg (by omega)]
  simp only [← hh]
  have hterm : ∀ j (hj : j < win.length), ∃ z : ℚ,
      (F32.num win[j] * (1 - F32.of ((if j > c then j - c else c - j : Nat) : ℚ) / F32.of (h : ℚ))) *
        (F32.num win[j] * (1 - F32.of ((if j > c then j - c else c - j : Nat) : ℚ) / F32.of (h : ℚ))) = F32.num z ∧
      Term 1 (2 * h + 5) z (f j) ∧ f j ≤ 2 ^ 60 := by
    intro j hj
    obtain ⟨z, h3, h4⟩ := tri_term (hm win[j] (List.getElem_mem hj)) (d := if j > c then j - c else c - j) (h := h)
      (by split <;> omega) hh1 hh2
    have hd : ((if j > c then j - c else c - j : Nat) : ℚ) = |(j : ℚ) - c| := by
      split
      · rename_i hjc
        rw [Nat.cast_sub hjc.le, abs_of_nonneg]
        have : (c : ℚ) ≤ j := by exact_mod_cast hjc.le
        linarith
      · rename_i hjc
        rw [Nat.cast_sub (by omega), abs_of_nonpos]
        · ring
        · have : (j : ℚ) ≤ c := by exact_mod_cast (by omega : j ≤ c)
          linarith
    have hf : f j = (win[j] * (1 - ((if j > c then j - c else c - j : Nat) : ℚ) / h)) *
        (win[j] * (1 - ((if j > c then j - c else c - j : Nat) : ℚ) / h)) := by
      show (win.getD j 0 * triWeight win.length c j) * (win.getD j 0 * triWeight win.length c j) = _
      rw [hd, List.getD_eq_getElem?_getD, List.getElem?_eq_getElem hj, Option.getD_some]
      unfold triWeight
      rw [← hh]
    refine ⟨z, h3, by rw [hf]; exact h4, ?_⟩
    rw [hf, hd]
    have hh0 : (0 : ℚ) < h := by exact_mod_cast hh1
    have hdh : |(j : ℚ) - c| ≤ h := by
      rw [← hd]
      exact_mod_cast (show (if j > c then j - c else c - j) ≤ h by split <;> omega)
    have hW0 : 0 ≤ 1 - |(j : ℚ) - c| / h := by
      have := (div_le_one hh0).2 hdh
      linarith
    have hW1 : 1 - |(j : ℚ) - c| / h ≤ 1 := by
      have := div_nonneg (abs_nonneg ((j : ℚ) - c)) hh0.le
      linarith
    generalize 1 - |(j : ℚ) - c| / h = W at *
    have hx : |win[j]| ≤ 2 ^ 30 := by
      rcases hm win[j] (List.getElem_mem hj) with h5 | h5
      · rw [h5]; norm_num
      · exact h5.2
    rw [← abs_mul_abs_self, abs_mul, abs_of_nonneg hW0]
    have h6 : |win[j]| * W ≤ 2 ^ 30 * 1 := mul_le_mul hx hW1 hW0 (by norm_num)
    calc |win[j]| * W * (|win[j]| * W) ≤ (2 ^ 30 * 1) * (2 ^ 30 * 1) :=
          mul_le_mul h6 h6 (mul_nonneg (abs_nonneg _) hW0) (by norm_num)
      _ = 2 ^ 60 := by norm_num
  obtain ⟨amp, hamp, a, ha, hadd, hle⟩ := forRange_inv (fun j amp => do
      let x ← readAt (win.map F32.num) j
      Res.ok (amp + (x * (1 - F32.of ((if j > c then j - c else c - j : Nat) : ℚ) / F32.of (h : ℚ))) *
        (x * (1 - F32.of ((if j > c then j - c else c - j : Nat) : ℚ) / F32.of (h : ℚ))))) P win.length 0 (0 : F32)
    ⟨0, rfl, ⟨by simp, .inl ⟨rfl, by simp⟩⟩, by simp⟩ (by
      intro j amp _ hj ⟨a, ha, hadd, hle⟩
      have hj : j < win.length := by omega
      obtain ⟨z, h3, h4, h5⟩ := hterm j hj
      obtain ⟨a', h6, h7⟩ := added_step (.inl rfl) hadd h4 (by omega)
      refine ⟨F32.num a', ?_, a', rfl, ?_, ?_⟩
      · rw [readAt_ok (by simpa using hj), Res.ok_bind, List.getElem_map, h3, ha, h6]
      · rw [sum_range_succ]; exact h7
      · rw [sum_range_succ]; push_cast; linarith)
  rw [Nat.zero_add] at hadd hle
  simp only [hamp, Res.ok_bind]
  have hfn : ∀ j, 0 ≤ f j := fun j => mul_self_nonneg _
  have hsn : ∀ k, 0 ≤ ((List.range k).map f).sum := fun k => by
    induction k with
    | zero => simp
    | succ k ih => rw [sum_range_succ]; linarith [hfn k]
  obtain ⟨_, hcase⟩ := hadd
  have hpos : 0 < ((List.range win.length).map f).sum := by
    obtain ⟨j, x, hx, hx0, hw0⟩ := hne
    obtain ⟨hj, hxj⟩ := List.getElem?_eq_some_iff.1 hx
    have hfj : 0 < f j := by
      refine lt_of_le_of_ne (hfn j) (Ne.symm ?_)
      show (win.getD j 0 * triWeight win.length c j) * (win.getD j 0 * triWeight win.length c j) ≠ 0
      rw [List.getD_eq_getElem?_getD, hx, Option.getD_some]
      exact mul_ne_zero (mul_ne_zero hx0 hw0) (mul_ne_zero hx0 hw0)
    have : ∀ k, j < k → 0 < ((List.range k).map f).sum := by
      intro k
      induction k with
      | zero => intro h; omega
      | succ k ih =>
        intro hk
        rw [sum_range_succ]
        rcases Nat.lt_or_eq_of_le (Nat.lt_succ_iff.1 hk) with h | h
        · linarith [ih h, hfn k]
        · subst h; linarith [hsn j]
    exact this _ hj
  obtain ⟨hn, hS⟩ := hcase.resolve_left (fun h => by rw [h.2] at hpos; exact absurd hpos (lt_irrefl _))
  rw [one_mul] at hn
  have hS' : ((List.range win.length).map f).sum ≤ 2 ^ 80 := by
    refine hle.trans ?_
    rw [show (2 : ℚ) ^ 80 = 2 ^ 20 * 2 ^ 60 by norm_num]
    exact mul_le_mul_of_nonneg_right (by exact_mod_cast hl) (by norm_num)
  have hap : (0 : ℚ) < a := by exact_mod_cast hn.pos
  have hfil : 1 ≤ filled win := by
    obtain ⟨j, x, hx, hx0, _⟩ := hne
    exact List.countP_pos_iff.2 ⟨x, List.mem_of_getElem? hx, by simpa using hx0⟩
  have hfl : filled win ≤ win.length := List.countP_le_length
  rw [ha, if_neg (by
    rw [F32.zero_def]; intro h; injection h with h; exact absurd h (ne_of_gt hap)), count_num, Nat.max_eq_right hfil]
  obtain ⟨g, h3, h4, h5, h6⟩ := root_gain hs hn (by omega) hS hS' hfil (hfl.trans hl) ht ht'
  have hmean : triMean win c = ((List.range win.length).map f).sum / (filled win : Nat) := rfl
  rw [hmean, h3]
  exact ⟨g, rfl, h4.mono (by omega), h5, h6⟩

/-- C103, triangular (partial): for every window of 2 to `2 ^ 20` samples that are zero or of magnitudes between `2 ^ -30` and
`2 ^ 30`, with one that is not zero and not at the rim of the triangle, and every target between `2 ^ -20` and `2 ^ 20`, the gain in
single precision is a number and that of the formula up to `n + 2 h + 12` units of `2 ^ -24`, for `n` samples and half-width `h`.

The full claim is for every window with a sample that is not zero: `C103_one_refuted`. -/
theorem C103_triangular_partial (sqrtf : ℚ → ℚ) (hs : GoodSqrt sqrtf) (win : List ℚ) (t : ℚ) (c : Nat)
    (hm : ∀ v ∈ win, v = 0 ∨ (1 / 2 ^ 30 ≤ |v| ∧ |v| ≤ 2 ^ 30))
    (hc : c < win.length) (h2 : 2 ≤ win.length) (hl : win.length ≤ 2 ^ 20)
    (hne : ∃ j x, win[j]? = some x ∧ x ≠ 0 ∧ triWeight win.length c j ≠ 0) (ht : 1 / 2 ^ 20 ≤ t) (ht' : t ≤ 2 ^ 20) :
    ∃ g : ℚ, triangularF sqrtf (win.map F32.num) (F32.num t) c = .ok (F32.num g) ∧ 0 < g ∧
      |(g : ℝ) - t / √(triMean win c : ℝ)| ≤
        t / √(triMean win c : ℝ) * ((win.length + 2 * max c (win.length - 1 - c) + 12 : Nat) / 2 ^ 24) := by
  obtain ⟨g, h1, h3, _, _⟩ := tri_near sqrtf hs win t c hm hc h2 hl hne ht ht'
  refine ⟨g, h1, by exact_mod_cast h3.pos, (h3.err (by omega)).trans ?_⟩
  refine mul_le_mul_of_nonneg_left ?_ h3.1.le
  rw [div_le_div_iff_of_pos_right (by norm_num)]
  generalize max c (win.length - 1 - c) = h
  have : ((2 * (h + win.length / 2 + 6) : Nat) : ℝ) ≤ ((win.length + 2 * h + 12 : Nat) : ℝ) := by exact_mod_cast (by omega)
  push_cast at this ⊢
  exact this

example : (∀ v ∈ [(2 : ℚ), 0, -3 / 8], v = 0 ∨ (1 / 2 ^ 30 ≤ |v| ∧ |v| ≤ 2 ^ 30)) ∧ 0 < [(2 : ℚ), 0, -3 / 8].length ∧
    (∃ j x, [(2 : ℚ), 0, -3 / 8][j]? = some x ∧ x ≠ 0 ∧ triWeight [(2 : ℚ), 0, -3 / 8].length 0 j ≠ 0) ∧ ∃ f, GoodSqrt f := by
  refine ⟨?_, by decide, ⟨0, 2, rfl, by norm_num, ?_⟩, goodSqrt_exists⟩
  · intro v hv
    simp only [List.mem_cons, List.not_mem_nil, or_false] at hv
    rcases hv with rfl | rfl | rfl
    · right; constructor <;> (rw [abs_of_pos (by norm_num)]; norm_num)
    · left; rfl
    · right; constructor <;> (rw [abs_of_neg (by norm_num)]; norm_num)
  · unfold triWeight; norm_num

/-- C103 fails for windows of one sample: the triangular gain is not-a-number, whatever the sample, and the assertion does
not stop it. -/
theorem C103_one_refuted (sqrtf : ℚ → ℚ) (x t : ℚ) : triangularF sqrtf [F32.num x] (F32.num t) 0 = .ok F32.nan := by
  have h0 : F32.of ((0 : Nat) : ℚ) = F32.num 0 := by rw [fin_of (by norm_num)]; simp [rnd_zero]
  have hd : F32.num 0 / F32.num 0 = F32.nan := rfl
  have hsub : (1 : F32) - F32.nan = F32.nan := rfl
  have hmul : F32.num x * F32.nan = F32.nan := rfl
  have hnn : F32.nan * F32.nan = F32.nan := rfl
  have hadd : (0 : F32) + F32.nan = F32.nan := rfl
  unfold triangularF
  rw [if_neg (by simp), if_neg (by simp)]
  have hf : ∀ f : Nat → F32 → Res F32, forRange f 0 [F32.num x].length 0 = (f 0 0).bind fun s => .ok s := fun f => rfl
  dsimp only
  rw [hf, readAt_ok (by simp)]
  simp only [List.length_cons, List.length_nil]
  simp only [Res.ok_bind, List.getElem_cons_zero, Nat.zero_add, Nat.sub_self, max_self, gt_iff_lt,
    Nat.lt_irrefl, if_false, h0, hd, hsub, hmul, hnn, hadd, Res.bind]
  rw [if_neg (by intro h; cases h)]
  generalize F32.of ((max 1 (List.countP (fun x => decide (x ≠ 0)) [F32.num x]) : Nat) : ℚ) = k
  have h1 : F32.nan / k = F32.nan := by cases k <;> rfl
  rw [h1]
  rfl

/-! ### Gain control -/

theorem agc_near (G : GainFn F32) (s : List ℚ) (w M : Nat) (t : ℚ) (E : Nat → ℝ)
    (hw : 2 * (w / 2) + 1 < s.length) (h64 : s.length < 2 ^ 64) (hM : M ≤ 2 ^ 22) (hm : ∀ v ∈ s, Usual v)
    (hG : ∀ j, j < s.length → ∃ g : ℚ,
      G (((s.take (min s.length (j + w / 2 + 1))).drop (j - w / 2)).map F32.num) (F32.num t) (min j (w / 2)) = .ok (F32.num g) ∧
      Near M (g : ℝ) (E j) ∧ (1 / 2 ^ 80 : ℝ) ≤ E j ∧ E j ≤ 2 ^ 80) :
    ∃ out : List ℚ, agc (s.map F32.num) G w (F32.num t) = .ok (out.map F32.num) ∧ out.length = s.length ∧
      ∀ (j : Nat) (x y : ℚ), s[j]? = some x → out[j]? = some y →
        |(y : ℝ) - x * E j| ≤ |(x : ℝ)| * E j * ((2 * M + 2 : Nat) / 2 ^ 24) := by
  have key : ∀ j, ∃ g : ℚ, j < s.length →
      G (((s.take (min s.length (j + w / 2 + 1))).drop (j - w / 2)).map F32.num) (F32.num t) (min j (w / 2)) = .ok (F32.num g) ∧
      Near M (g : ℝ) (E j) ∧ (1 / 2 ^ 80 : ℝ) ≤ E j ∧ E j ≤ 2 ^ 80 := by
    intro j
    by_cases hj : j < s.length
    · obtain ⟨g, h⟩ := hG j hj
      exact ⟨g, fun _ => h⟩
    · exact ⟨0, fun h => absurd h hj⟩
  choose g hg using key
  obtain ⟨out, h1, h2, h3⟩ := C40_window_partial (s.map F32.num) G w (F32.num t) (by simpa using hw)
    (by simpa using h64) (fun j => F32.num (g j)) (by
      intro j hj
      rw [List.length_map] at hj ⊢
      rw [← List.map_take, ← List.map_drop]
      exact (hg j hj).1)
  rw [List.length_map] at h2
  have hbig : ∀ j (x : ℚ), s[j]? = some x → |x * g j| ≤ 2 ^ 120 := by
    intro j x hx
    have hj : j < s.length := (List.getElem?_eq_some_iff.1 hx).1
    obtain ⟨_, hn, _, hE⟩ := hg j hj
    have h4 := (hn.two (by omega)).2
    have h5 : (g j : ℝ) ≤ 2 ^ 81 := h4.trans (by
      calc 2 * E j ≤ 2 * 2 ^ 80 := by linarith
        _ = 2 ^ 81 := by norm_num)
    have h6 : g j ≤ 2 ^ 81 := by exact_mod_cast h5
    have h7 : 0 < g j := by exact_mod_cast hn.pos
    have h8 : |x| ≤ 2 ^ 30 := by
      rcases hm x (List.mem_of_getElem? hx) with h | h
      · rw [h]; norm_num
      · exact h.2
    rw [abs_mul, abs_of_pos h7]
    calc |x| * g j ≤ 2 ^ 30 * 2 ^ 81 := mul_le_mul h8 h6 h7.le (by norm_num)
      _ ≤ 2 ^ 120 := by norm_num
  have hout : out = ((List.range s.length).map fun j => rnd (s.getD j 0 * g j)).map F32.num := by
    refine List.ext_getElem? fun j => ?_
    by_cases hj : j < s.length
    · have h4 := h3 j (by simpa using hj)
      rw [h4]
      simp only [List.getElem_map, List.getElem?_map, List.getElem?_range hj, Option.map_some]
      have h5 : s.getD j 0 = s[j] := by simp [hj]
      rw [h5, F32.num_mul, fin_of (hbig j s[j] (List.getElem?_eq_getElem hj))]
    · rw [List.getElem?_eq_none (by omega), List.getElem?_eq_none (by simp; omega)]
  refine ⟨(List.range s.length).map fun j => rnd (s.getD j 0 * g j), by rw [h1, hout], by simp, ?_⟩
  intro j x y hx hy
  have hj : j < s.length := (List.getElem?_eq_some_iff.1 hx).1
  have hy' : y = rnd (x * g j) := by
    rw [List.getElem?_map, List.getElem?_range hj, Option.map_some, Option.some.injEq] at hy
    rw [← hy, List.getD_eq_getElem?_getD, hx]
    rfl
  obtain ⟨_, hn, hE1, _⟩ := hg j hj
  generalize E j = E at *
  have hd := hn.err (by omega)
  have hEp : 0 < E := hn.1
  rw [hy']
  by_cases h0 : x = 0
  · rw [h0]; simp [rnd_zero]
  have hxm := (hm x (List.mem_of_getElem? hx)).resolve_left h0
  have hgp : (0 : ℚ) < g j := by exact_mod_cast hn.pos
  have hg61 : (1 / 2 ^ 81 : ℚ) ≤ g j := by
    have : (((1 / 2 ^ 81 : ℚ)) : ℝ) ≤ (g j : ℝ) := by
      refine le_trans ?_ (hn.two (by omega)).1
      push_cast
      calc (1 : ℝ) / 2 ^ 81 = 1 / 2 ^ 80 / 2 := by norm_num
        _ ≤ E / 2 := by linarith
    exact_mod_cast this
  have hnorm : (2 : ℚ) ^ (-126 : ℤ) ≤ |x * g j| := by
    rw [abs_mul, abs_of_pos hgp]
    have h9 : (2 : ℚ) ^ (-126 : ℤ) ≤ 1 / 2 ^ 30 * (1 / 2 ^ 81) := by
      rw [zpow_neg, one_div, one_div, ← mul_inv]
      exact inv_anti₀ (by norm_num) (by norm_num)
    exact h9.trans (mul_le_mul hxm.1 hg61 (by norm_num) (abs_nonneg _))
  have hr := (Rat.cast_le (K := ℝ)).2 (rnd_err hnorm)
  push_cast at hr
  rw [abs_mul, abs_of_pos (show (0 : ℝ) < g j by exact_mod_cast hgp)] at hr
  have hg2 : (g j : ℝ) ≤ 2 * E := (hn.two (by omega)).2
  have hx0 : (0 : ℝ) ≤ |(x : ℝ)| := abs_nonneg _
  calc |((rnd (x * g j) : ℚ) : ℝ) - x * E|
      = |(((rnd (x * g j) : ℚ) : ℝ) - x * g j) + x * (g j - E)| := by congr 1; ring
    _ ≤ |((rnd (x * g j) : ℚ) : ℝ) - x * g j| + |(x : ℝ) * (g j - E)| := abs_add_le _ _
    _ ≤ |(x : ℝ)| * (2 * E) / 2 ^ 24 + |(x : ℝ)| * (E * (2 * M / 2 ^ 24)) := by
        rw [abs_mul (x : ℝ)]
        refine add_le_add (hr.trans ?_) (mul_le_mul_of_nonneg_left hd hx0)
        rw [div_le_div_iff_of_pos_right (by norm_num)]
        exact mul_le_mul_of_nonneg_left hg2 hx0
    _ = |(x : ℝ)| * E * ((2 * M + 2 : Nat) / 2 ^ 24) := by push_cast; ring

/-- C103, gain control with the triangle (partial): for every signal whose samples are zero or of magnitudes between `2 ^ -30`
and `2 ^ 30`, a window of at least two, and a sample that is not zero off the rim of the triangle in each window, gain control in
single precision ends with numbers, each the sample times the gain of the formula up to `2 w + 15` units of `2 ^ -24`.

The full claim is for every window size: `C103_nan_refuted`. -/
theorem C103_agc_partial (sqrtf : ℚ → ℚ) (hs : GoodSqrt sqrtf) (s : List ℚ) (w : Nat) (t : ℚ) (hw2 : 2 ≤ w)
    (hw : 2 * (w / 2) + 1 < s.length) (h64 : s.length < 2 ^ 64) (hw' : w < 2 ^ 20)
    (hm : ∀ v ∈ s, v = 0 ∨ (1 / 2 ^ 30 ≤ |v| ∧ |v| ≤ 2 ^ 30))
    (hne : ∀ j, j < s.length → ∃ i x, s[i]? = some x ∧ x ≠ 0 ∧ i < j + w / 2 ∧ j < i + w / 2)
    (ht : 1 / 2 ^ 20 ≤ t) (ht' : t ≤ 2 ^ 20) :
    ∃ out : List ℚ, agc (s.map F32.num) (triangularF sqrtf) w (F32.num t) = .ok (out.map F32.num) ∧ out.length = s.length ∧
      ∀ (j : Nat) (x y : ℚ), s[j]? = some x → out[j]? = some y →
        |(y : ℝ) - x * (t / √(triMean ((s.take (min s.length (j + w / 2 + 1))).drop (j - w / 2)) (min j (w / 2)) : ℝ))| ≤
          |(x : ℝ)| * (t / √(triMean ((s.take (min s.length (j + w / 2 + 1))).drop (j - w / 2)) (min j (w / 2)) : ℝ)) *
            ((2 * w + 15) / 2 ^ 24) := by
  obtain ⟨out, h1, h2, h3⟩ := agc_near (triangularF sqrtf) s w (w / 2 + (w + 1) / 2 + 6) t
    (fun j => t / √(triMean ((s.take (min s.length (j + w / 2 + 1))).drop (j - w / 2)) (min j (w / 2)) : ℝ)) hw h64 (by omega) hm (by
      intro j hj
      obtain ⟨k1, k2, k3⟩ := C56_clipped s w j hw hj
      obtain ⟨i, x, hx, hx0, hi1, hi2⟩ := hne j hj
      have hi := (List.getElem?_eq_some_iff.1 hx).1
      have hlen : ((s.take (min s.length (j + w / 2 + 1))).drop (j - w / 2)).length = min s.length (j + w / 2 + 1) - (j - w / 2) := by
        simp
      obtain ⟨g, g1, g2, g3, g4⟩ := tri_near sqrtf hs ((s.take (min s.length (j + w / 2 + 1))).drop (j - w / 2)) t (min j (w / 2))
        (fun v hv => hm v (List.mem_of_mem_take (List.mem_of_mem_drop hv))) k1 (by rw [hlen]; omega) (by rw [hlen]; omega)
        ⟨i - (j - w / 2), x, by
          rw [List.getElem?_drop, List.getElem?_take_of_lt (by omega), show j - w / 2 + (i - (j - w / 2)) = i by omega]
          exact hx, hx0, by
          unfold triWeight
          rw [k2]
          have hw0 : (0 : ℚ) < (w / 2 : Nat) := by exact_mod_cast (by omega : 0 < w / 2)
          have hlt : |((i - (j - w / 2) : Nat) : ℚ) - (min j (w / 2) : Nat)| < (w / 2 : Nat) := by
            rw [abs_lt]
            have e1 : ((min j (w / 2) : Nat) : ℚ) < ((i - (j - w / 2) : Nat) : ℚ) + (w / 2 : Nat) := by exact_mod_cast (by omega)
            have e2 : ((i - (j - w / 2) : Nat) : ℚ) < ((min j (w / 2) : Nat) : ℚ) + (w / 2 : Nat) := by exact_mod_cast (by omega)
            constructor <;> linarith
          have := (div_lt_one hw0).2 hlt
          intro h0
          linarith⟩ ht ht'
      refine ⟨g, g1, g2.mono ?_, g3, g4⟩
      rw [k2, hlen]
      omega)
  refine ⟨out, h1, h2, fun j x y hx hy => (h3 j x y hx hy).trans ?_⟩
  refine mul_le_mul_of_nonneg_left ?_ (mul_nonneg (abs_nonneg _) ?_)
  · rw [div_le_div_iff_of_pos_right (by norm_num)]
    have : ((2 * (w / 2 + (w + 1) / 2 + 6) + 2 : Nat) : ℝ) ≤ ((2 * w + 15 : Nat) : ℝ) := by exact_mod_cast (by omega)
    push_cast at this ⊢
    exact this
  · have : (0 : ℝ) ≤ t := by exact_mod_cast (le_trans (by norm_num) ht)
    exact div_nonneg this (Real.sqrt_nonneg _)

example : 2 * (3 / 2) + 1 < [(1 : ℚ), 3, -1, 2].length ∧ ∀ j, j < [(1 : ℚ), 3, -1, 2].length →
    ∃ i x, [(1 : ℚ), 3, -1, 2][i]? = some x ∧ x ≠ 0 ∧ i < j + 3 / 2 ∧ j < i + 3 / 2 := by
  refine ⟨by decide, ?_⟩
  intro j hj
  have : j = 0 ∨ j = 1 ∨ j = 2 ∨ j = 3 := by simp at hj; omega
  rcases this with rfl | rfl | rfl | rfl
  · exact ⟨0, 1, rfl, by norm_num, by decide, by decide⟩
  · exact ⟨1, 3, rfl, by norm_num, by decide, by decide⟩
  · exact ⟨2, -1, rfl, by norm_num, by decide, by decide⟩
  · exact ⟨3, 2, rfl, by norm_num, by decide, by decide⟩

/-- C103, gain control with the triangle, fails for windows of one sample: every sample of every signal becomes
not-a-number. -/
theorem C103_nan_refuted (sqrtf : ℚ → ℚ) (s : List ℚ) (w : Nat) (t : ℚ) (hw : w ≤ 1) (hl : 1 < s.length)
    (h64 : s.length < 2 ^ 64) :
    agc (s.map F32.num) (triangularF sqrtf) w (F32.num t) = .ok (List.replicate s.length F32.nan) := by
  have hw2 : w / 2 = 0 := by omega
  obtain ⟨out, h1, h2, h3⟩ := C40_window_partial (s.map F32.num) (triangularF sqrtf) w (F32.num t) (by simp; omega)
    (by simpa using h64) (fun _ => F32.nan) (by
      intro j hj
      rw [List.length_map] at hj ⊢
      rw [← List.map_take, ← List.map_drop, hw2]
      have : (s.take (min s.length (j + 0 + 1))).drop (j - 0) = [s[j]] := by
        refine List.ext_getElem? fun k => ?_
        rw [List.getElem?_drop]
        rcases k with _ | k
        · rw [List.getElem?_take_of_lt (by omega)]
          simp [hj]
        · rw [List.getElem?_eq_none (by simp), List.getElem?_eq_none (by simp)]
      rw [this, Nat.min_zero]
      exact C103_one_refuted sqrtf s[j] t)
  rw [h1]
  congr 1
  refine List.ext_getElem? fun j => ?_
  rw [List.length_map] at h2
  by_cases hj : j < s.length
  · rw [h3 j (by simpa using hj), List.getElem?_replicate, if_pos hj, List.getElem_map]
    rfl
  · rw [List.getElem?_eq_none (by omega), List.getElem?_eq_none (by simp; omega)]

/-! ### The mean -/

theorem mean_added {σ : ℚ} (hσ : σ = 1 ∨ σ = -1) (win : List ℚ) (hm : ∀ v ∈ win, Usual v) (hsgn : ∀ v ∈ win, 0 ≤ σ * v) :
    ∀ (k : Nat) (a e : ℚ), Added σ 0 k a e → k + win.length ≤ 2 ^ 23 →
      ∃ a', (win.map F32.num).foldl (· + ·) (F32.num a) = F32.num a' ∧
        Added σ 0 (k + win.length) a' (e + (win.map fun x => |x|).sum) := by
  induction win with
  | nil => intro k a e h _; exact ⟨a, rfl, by simpa using h⟩
  | cons v win ih =>
    intro k a e h hk
    rw [List.length_cons] at hk
    have hs : |σ| = 1 := by rcases hσ with rfl | rfl <;> norm_num
    have hv : σ * v = |v| := by
      rw [← abs_of_nonneg (hsgn v (List.mem_cons_self ..)), abs_mul, hs, one_mul]
    have hterm : Term σ 0 v |v| := by
      rcases hm v (List.mem_cons_self ..) with h0 | ⟨h1, h2⟩
      · exact .inl ⟨h0, by rw [h0, abs_zero]⟩
      · refine .inr ⟨?_, le_trans (by norm_num) h1, h2.trans (by norm_num)⟩
        rw [hv]
        exact Near.refl (by exact_mod_cast lt_of_lt_of_le (by norm_num) h1)
    obtain ⟨a1, h1, h2⟩ := added_step hσ h hterm (by omega)
    obtain ⟨a2, h3, h4⟩ := ih (fun u hu => hm u (List.mem_cons_of_mem _ hu)) (fun u hu => hsgn u (List.mem_cons_of_mem _ hu))
      _ _ _ h2 (by omega)
    refine ⟨a2, by rw [List.map_cons, List.foldl_cons, h1, h3], ?_⟩
    rw [List.map_cons, List.sum_cons, ← add_assoc, List.length_cons, show k + (win.length + 1) = k + 1 + win.length by omega]
    exact h4

/-- C103, mean (partial): for every window of at most `2 ^ 20` samples of one sign, zero or of magnitudes between `2 ^ -30` and
`2 ^ 30`, and every target between `2 ^ -20` and `2 ^ 20`, the gain in single precision is a number, and it is the target over
the mean of the magnitudes of the samples that are not zero up to `2 n + 4` units of `2 ^ -24`.

The full claim is for every window with a sample that is not zero: `C103_cancel_refuted`, `C103_overflow_refuted`. -/
theorem C103_mean_partial (win : List ℚ) (t : ℚ) (c : Nat) (hm : ∀ v ∈ win, v = 0 ∨ (1 / 2 ^ 30 ≤ |v| ∧ |v| ≤ 2 ^ 30))
    (hsgn : (∀ v ∈ win, 0 ≤ v) ∨ ∀ v ∈ win, v ≤ 0) (hne : ∃ v ∈ win, v ≠ 0) (hl : win.length ≤ 2 ^ 20)
    (ht : 1 / 2 ^ 20 ≤ t) (ht' : t ≤ 2 ^ 20) :
    ∃ g : ℚ, meanAbsF (win.map F32.num) (F32.num t) c = .ok (F32.num g) ∧ 0 < g ∧
      |g - t / ((win.map fun x => |x|).sum / (win.countP fun x => decide (x ≠ 0) : Nat))| ≤
        t / ((win.map fun x => |x|).sum / (win.countP fun x => decide (x ≠ 0) : Nat)) * ((2 * win.length + 4) / 2 ^ 24) := by
  obtain ⟨σ, hσ, hσs⟩ : ∃ σ : ℚ, (σ = 1 ∨ σ = -1) ∧ ∀ v ∈ win, 0 ≤ σ * v := by
    rcases hsgn with h | h
    · exact ⟨1, .inl rfl, fun v hv => by rw [one_mul]; exact h v hv⟩
    · exact ⟨-1, .inr rfl, fun v hv => by have := h v hv; linarith⟩
  obtain ⟨a, ha, hle, hc⟩ := mean_added hσ win hm hσs 0 0 0 ⟨by norm_num, .inl ⟨rfl, rfl⟩⟩ (by omega)
  rw [zero_add, Nat.zero_add] at hc
  have hfil : 1 ≤ filled win := by
    obtain ⟨v, h1, h2⟩ := hne
    exact List.countP_pos_iff.2 ⟨v, h1, by simpa using h2⟩
  have hfl : filled win ≤ win.length := List.countP_le_length
  have hlow : ∀ l : List ℚ, (∀ v ∈ l, Usual v) → (filled l : ℚ) * (1 / 2 ^ 30) ≤ (l.map fun x => |x|).sum ∧
      (l.map fun x => |x|).sum ≤ (filled l : ℚ) * 2 ^ 30 := by
    intro l hl
    induction l with
    | nil => simp [filled]
    | cons v l ih =>
      obtain ⟨i1, i2⟩ := ih fun u hu => hl u (List.mem_cons_of_mem _ hu)
      rw [List.map_cons, List.sum_cons]
      by_cases h0 : v = 0
      · have : filled (v :: l) = filled l := by simp [filled, h0]
        rw [this, h0, abs_zero, zero_add]
        exact ⟨i1, i2⟩
      · have : filled (v :: l) = filled l + 1 := by simp [filled, h0]
        obtain ⟨h1, h2⟩ := (hl v (List.mem_cons_self ..)).resolve_left h0
        rw [this]
        push_cast
        constructor <;> linarith
  obtain ⟨hb1, hb2⟩ := hlow win hm
  have hf1 : (1 : ℚ) ≤ filled win := by exact_mod_cast hfil
  have hf2 : (filled win : ℚ) ≤ 2 ^ 20 := by exact_mod_cast hfl.trans hl
  have hF0 : (0 : ℚ) < filled win := by linarith
  obtain ⟨F, hF⟩ : ∃ F, F = filled win := ⟨_, rfl⟩
  obtain ⟨S, hS⟩ : ∃ S, S = (win.map fun x => |x|).sum := ⟨_, rfl⟩
  have hshow : (win.countP fun x => decide (x ≠ 0)) = F := hF.symm
  rw [hshow, ← hS]
  rw [← hS] at hc hb1 hb2
  rw [← hF] at hb1 hb2 hf1 hf2 hF0 hfil hfl
  have hSlow : (1 : ℚ) / 2 ^ 30 ≤ S := by
    refine le_trans ?_ hb1
    nlinarith [show (0 : ℚ) < 1 / 2 ^ 30 by norm_num]
  have hSup : S ≤ 2 ^ 50 := by
    refine hb2.trans ?_
    rw [show (2 : ℚ) ^ 50 = 2 ^ 20 * 2 ^ 30 by norm_num]
    exact mul_le_mul_of_nonneg_right hf2 (by norm_num)
  have hS0 : (0 : ℚ) < S := lt_of_lt_of_le (by norm_num) hSlow
  obtain ⟨hn, _⟩ := hc.resolve_left fun h => by rw [h.2] at hS0; exact absurd hS0 (lt_irrefl _)
  have hσa : σ * a = |a| := by
    have h1 : (0 : ℚ) < σ * a := by exact_mod_cast hn.pos
    have hs : |σ| = 1 := by rcases hσ with rfl | rfl <;> norm_num
    rw [← abs_of_pos h1, abs_mul, hs, one_mul]
  rw [hσa, Nat.zero_add] at hn
  have hap : (0 : ℚ) < |a| := by exact_mod_cast hn.pos
  have hlen : 0 < win.length := by
    obtain ⟨v, h1, _⟩ := hne
    exact List.length_pos_of_mem h1
  unfold meanAbsF
  simp only
  rw [List.length_map, if_neg (by omega), F32.zero_def, ha, if_neg (by
    intro h; injection h with h; rw [h, abs_zero] at hap; exact absurd hap (lt_irrefl _)), ← F32.zero_def, count_num, ← hF,
    Nat.max_eq_right hfil]
  obtain ⟨q, h1, hq⟩ := mean_near hn (by omega) (le_trans (by norm_num) hSlow) (hSup.trans (by norm_num)) hfil (hfl.trans hl)
  have habs : absF (F32.num a) = F32.num |a| := rfl
  rw [habs, h1]
  have hm1 : (1 : ℚ) / 2 ^ 30 ≤ S / F := by rw [le_div_iff₀ hF0]; linarith
  have hm2 : S / F ≤ 2 ^ 30 := by rw [div_le_iff₀ hF0]; linarith
  have hr1 : (1 / 2 ^ 60 : ℝ) ≤ ((S / F : ℚ) : ℝ) := by
    have : (((1 : ℚ) / 2 ^ 30 : ℚ) : ℝ) ≤ ((S / F : ℚ) : ℝ) := by exact_mod_cast hm1
    refine le_trans ?_ this
    push_cast
    norm_num
  have hr2 : ((S / F : ℚ) : ℝ) ≤ 2 ^ 60 := by
    have : ((S / F : ℚ) : ℝ) ≤ (((2 : ℚ) ^ 30 : ℚ) : ℝ) := by exact_mod_cast hm2
    refine this.trans ?_
    push_cast
    norm_num
  obtain ⟨g, h5, h6, _, _⟩ := quot_near hq (by omega) ht ht' hr1 hr2
  refine ⟨g, by rw [h5], by exact_mod_cast h6.pos, ?_⟩
  have he := h6.err (by omega)
  have : ((|g - t / (S / F)| : ℚ) : ℝ) ≤ ((t / (S / F) * ((2 * win.length + 4) / 2 ^ 24) : ℚ) : ℝ) := by
    push_cast at he ⊢
    refine he.trans (le_of_eq ?_)
    ring
  exact_mod_cast this

example : (∀ v ∈ [(-2 : ℚ), 0, -3 / 8], v = 0 ∨ (1 / 2 ^ 30 ≤ |v| ∧ |v| ≤ 2 ^ 30)) ∧
    ((∀ v ∈ [(-2 : ℚ), 0, -3 / 8], 0 ≤ v) ∨ ∀ v ∈ [(-2 : ℚ), 0, -3 / 8], v ≤ 0) ∧ ∃ v ∈ [(-2 : ℚ), 0, -3 / 8], v ≠ 0 := by
  refine ⟨?_, .inr ?_, -2, by simp, by norm_num⟩
  · intro v hv
    simp only [List.mem_cons, List.not_mem_nil, or_false] at hv
    rcases hv with rfl | rfl | rfl
    · right; constructor <;> (rw [abs_of_neg (by norm_num)]; norm_num)
    · left; rfl
    · right; constructor <;> (rw [abs_of_neg (by norm_num)]; norm_num)
  · intro v hv
    simp only [List.mem_cons, List.not_mem_nil, or_false] at hv
    rcases hv with rfl | rfl | rfl <;> norm_num

/-- A number of magnitude below one is lost beside `2 ^ 25`. -/
theorem lost {x : ℚ} (hx : |x| < 1) : rnd (2 ^ 25 + x) = 2 ^ 25 := by
  have h1 := rnd_nearest (x := 2 ^ 25 + x) (y := 2 ^ 25) ⟨1, 25, by norm_num, by norm_num, by norm_num⟩
  rw [show (2 : ℚ) ^ 25 - (2 ^ 25 + x) = -x by ring, abs_neg] at h1
  obtain ⟨n, e, hn, he, hr⟩ := isSingle_rnd (2 ^ 25 + x)
  generalize rnd (2 ^ 25 + x) = r at *
  obtain ⟨a1, a2⟩ := abs_lt.1 hx
  obtain ⟨b1, b2⟩ := abs_le.1 h1
  have c1 : (2 : ℚ) ^ 25 - 2 < r := by
    rcases abs_cases x with ⟨h, _⟩ | ⟨h, _⟩ <;> linarith
  have c2 : r < (2 : ℚ) ^ 25 + 2 := by
    rcases abs_cases x with ⟨h, _⟩ | ⟨h, _⟩ <;> linarith
  -- the last place is at least two
  have he1 : 1 ≤ e := by
    by_contra hc
    have h2 : (2 : ℚ) ^ e ≤ 2 ^ (0 : ℤ) := zpow_le_zpow_right₀ (by norm_num) (by omega)
    rw [zpow_zero] at h2
    have h3 : |(n : ℚ)| < 2 ^ 24 := by
      have : ((|n| : ℤ) : ℚ) < ((2 ^ 24 : ℤ) : ℚ) := by exact_mod_cast hn
      rw [Int.cast_abs] at this
      push_cast at this
      exact this
    have h4 : |r| ≤ 2 ^ 24 * 1 := by
      rw [hr, abs_mul, abs_of_pos (FP.two_zpow_pos e)]
      exact mul_le_mul h3.le h2 (FP.two_zpow_pos e).le (by norm_num)
    have h5 := (abs_le.1 h4).2
    have : (2 : ℚ) ^ 24 * 1 < 2 ^ 25 - 2 := by norm_num
    linarith
  obtain ⟨k, rfl⟩ : ∃ k : ℕ, e = (k : ℤ) + 1 := ⟨(e - 1).toNat, by omega⟩
  have hint : r = ((n * 2 ^ k * 2 : ℤ) : ℚ) := by
    rw [hr, zpow_add₀ (by norm_num), zpow_natCast]
    push_cast
    ring
  rw [hint] at c1 c2 ⊢
  have d1 : (2 : ℤ) ^ 25 - 2 < n * 2 ^ k * 2 := by exact_mod_cast c1
  have d2 : n * 2 ^ k * 2 < (2 : ℤ) ^ 25 + 2 := by exact_mod_cast c2
  have d3 : n * 2 ^ k * 2 = (2 : ℤ) ^ 25 := by omega
  rw [d3]
  norm_num

/-- C103, mean, fails although the sum of the samples is not zero: every sample of magnitude below one is lost between `2 ^ 25`
and `- 2 ^ 25`, and the assertion fails. -/
theorem C103_cancel_refuted (x : ℚ) (t : F32) (c : Nat) (hx : |x| < 1) :
    meanAbsF [F32.num (2 ^ 25), F32.num x, F32.num (-2 ^ 25)] t c = .abort := by
  have h1 : (0 : F32) + F32.num (2 ^ 25) = F32.num (2 ^ 25) := by
    rw [F32.zero_def, F32.num_add, zero_add, fin_of (by norm_num), rnd_single ⟨1, 25, by norm_num, by norm_num, by norm_num⟩]
  have h2 : F32.num (2 ^ 25) + F32.num x = F32.num (2 ^ 25) := by
    rw [F32.num_add, fin_of, lost hx]
    obtain ⟨a1, a2⟩ := abs_lt.1 hx
    rw [abs_le]
    have : (2 : ℚ) ^ 25 + 1 ≤ 2 ^ 120 := by norm_num
    have : (0 : ℚ) ≤ 2 ^ 25 := by norm_num
    constructor <;> linarith
  have h3 : F32.num (2 ^ 25) + F32.num (-2 ^ 25) = 0 := by
    rw [F32.num_add, add_neg_cancel, fin_of (by norm_num), rnd_zero]; rfl
  unfold meanAbsF
  rw [if_neg (by simp)]
  simp only [List.foldl_cons, List.foldl_nil, h1, h2, h3]
  rw [if_pos trivial]

example : |(1 / 2 : ℚ)| < 1 ∧ (2 ^ 25 + 1 / 2 + -2 ^ 25 : ℚ) ≠ 0 := by norm_num

/-- C103, mean, fails for loud samples: the sum of two samples of `2 ^ 127` or more overflows and the gain is zero, so the
samples are wiped out. -/
theorem C103_overflow_refuted (x y t : ℚ) (c : Nat) (hx : 2 ^ 127 ≤ x) (hy : 2 ^ 127 ≤ y)
    (hs : IsSingle x) (hx2 : x < 2 ^ 128) : meanAbsF [F32.num x, F32.num y] (F32.num t) c = .ok (F32.num 0) := by
  have hx0 : (0 : ℚ) < x := lt_of_lt_of_le (by norm_num) hx
  have h1 : (0 : F32) + F32.num x = F32.num x := by
    rw [F32.zero_def, F32.num_add, zero_add, F32.of_fin (by rw [rnd_single hs, abs_of_pos hx0]; exact hx2), rnd_single hs]
  have hsum : (2 : ℚ) ^ 128 ≤ x + y := by
    have : (2 : ℚ) ^ 128 = 2 ^ 127 + 2 ^ 127 := by norm_num
    linarith
  have h2 : F32.num x + F32.num y = F32.inf false := by
    rw [F32.num_add]
    have h3 : (2 : ℚ) ^ 128 ≤ rnd (x + y) := rnd_ge ⟨1, 128, by norm_num, by norm_num, by norm_num⟩ hsum
    unfold F32.of
    rw [if_neg (by
      rw [not_lt]
      exact h3.trans (le_abs_self _))]
    have : ¬ x + y < 0 := by
      have : (0 : ℚ) < 2 ^ 128 := by norm_num
      linarith
    rw [decide_eq_false this]
  unfold meanAbsF
  rw [if_neg (by simp)]
  simp only [List.foldl_cons, List.foldl_nil, h1, h2]
  rw [if_neg (by intro h; cases h)]
  have h0 : List.countP (fun x => decide (x ≠ 0)) [F32.num x, F32.num y] ≤ 2 := List.countP_le_length
  rw [cnt_exact (by omega)]
  generalize (max 1 (List.countP (fun x => decide (x ≠ 0)) [F32.num x, F32.num y])) = k
  have h4 : absF (F32.inf false) / F32.num (k : ℚ) = F32.inf false := by
    show F32.inf (false != decide ((k : ℚ) < 0)) = _
    have : ¬ (k : ℚ) < 0 := not_lt.2 (by exact_mod_cast Nat.zero_le k)
    rw [decide_eq_false this]
    rfl
  rw [h4]
  rfl

example : (2 : ℚ) ^ 127 ≤ 3 * 2 ^ 126 ∧ IsSingle (3 * 2 ^ 126) ∧ (3 * 2 ^ 126 : ℚ) < 2 ^ 128 :=
  ⟨by norm_num, ⟨3, 126, by norm_num, by norm_num, by norm_num⟩, by norm_num⟩

/-! ### The median -/

theorem ltF_num (a b : ℚ) : ltF (F32.num a) (F32.num b) = decide (a < b) := rfl

theorem sort_num (win : List ℚ) :
    (win.map F32.num).insertionSort (fun a b => ltF b a = false) = (win.insertionSort (· ≤ ·)).map F32.num := by
  refine (List.map_insertionSort (r := (· ≤ ·)) (s := fun a b => ltF b a = false) F32.num win ?_).symm
  intro a _ b _
  rw [ltF_num, decide_eq_false_iff_not, not_lt]

/-- C103, median (partial): for every window of an odd number of samples there is a median, a sample with fewer than half of
the samples below and fewer than half above; if it is zero the assertion fails, and otherwise the gain in single precision is the
target divided by it, rounded once, for quotients from `2 ^ -126` to `2 ^ 120`.

The full claim is for every window: `C103_pair_refuted`. -/
theorem C103_median_partial (win : List ℚ) (t : ℚ) (c : Nat) (hodd : win.length % 2 = 1) :
    ∃ m ∈ win, 2 * (win.countP fun x => decide (x < m)) < win.length ∧ 2 * (win.countP fun x => decide (m < x)) < win.length ∧
      (m = 0 → medianF (win.map F32.num) (F32.num t) c = .abort) ∧
      (m ≠ 0 → (2 : ℚ) ^ (-126 : ℤ) ≤ |t / m| → |t / m| ≤ 2 ^ 120 →
        ∃ g : ℚ, medianF (win.map F32.num) (F32.num t) c = .ok (F32.num g) ∧ |g - t / m| ≤ |t / m| / 2 ^ 24) := by
  obtain ⟨⟨m, hm, h1, h2⟩, h3⟩ := C42_median_partial win 1 c hodd
  have h4 := h3 m hm h1 h2
  have hk : win.length / 2 < (win.insertionSort (· ≤ ·)).length := by rw [List.length_insertionSort]; omega
  have hval : (win.insertionSort (· ≤ ·))[win.length / 2] = m := by
    unfold medianGain at h4
    simp only at h4
    rw [if_neg (by omega), readAt_ok hk, Res.ok_bind] at h4
    generalize (win.insertionSort (· ≤ ·))[win.length / 2] = x at h4
    by_cases hx : x = 0 <;> by_cases hm0 : m = 0
    · rw [hx, hm0]
    · rw [if_pos hx, if_neg hm0] at h4; cases h4
    · rw [if_neg hx, if_pos hm0] at h4; cases h4
    · rw [if_neg hx, if_neg hm0, Res.ok.injEq, one_div, one_div, inv_inj] at h4
      exact h4
  have hmed : medianF (win.map F32.num) (F32.num t) c =
      if F32.num m = 0 then .abort else .ok (F32.num t / F32.num m) := by
    unfold medianF
    rw [if_neg (by
      rintro ⟨_, h⟩
      obtain ⟨x, _, h⟩ := List.mem_map.1 h
      cases h)]
    simp only [sort_num]
    rw [List.length_map, if_neg (by omega), readAt_ok (by rw [List.length_map]; exact hk), Res.ok_bind, List.getElem_map, hval]
  refine ⟨m, hm, h1, h2, ?_, ?_⟩
  · intro h
    rw [hmed, h, F32.zero_def, if_pos rfl]
  · intro h h5 h6
    refine ⟨rnd (t / m), ?_, rnd_err h5⟩
    rw [hmed, if_neg (by rw [F32.zero_def]; intro hh; injection hh with hh; exact h hh), F32.num_div _ _ h, fin_of h6]

example : [(5 : ℚ), -1, 3].length % 2 = 1 ∧ (2 : ℚ) ^ (-126 : ℤ) ≤ |2 / 3| ∧ |(2 / 3 : ℚ)| ≤ 2 ^ 120 := by
  rw [abs_of_pos (by norm_num)]
  refine ⟨by decide, ?_, by norm_num⟩
  rw [zpow_neg]
  exact le_trans (inv_anti₀ (b := (2 : ℚ) ^ 2) (by norm_num) (by norm_num)) (by norm_num)

/-- C103, median, fails for every window of two samples: a place behind the sorted samples is read. -/
theorem C103_pair_refuted (x y t : F32) (c : Nat) : medianF [x, y] t c = .ub := by
  unfold medianF
  by_cases hn : [x, y].length > 1 ∧ F32.nan ∈ [x, y]
  · rw [if_pos hn]
  · rw [if_neg hn]
    have hl : ([x, y].insertionSort fun a b => ltF b a = false).length = 2 := List.length_insertionSort _ _
    simp only [List.length_cons, List.length_nil]
    rw [if_pos (by decide), readAt_ok (by rw [hl]; decide), Res.ok_bind, readAt_ub (by rw [hl])]
    rfl

/-- C103, gain control with the median, fails for every signal of at least four samples with a window of two or three: the
first window has two samples. -/
theorem C103_start_refuted (s : List F32) (w : Nat) (t : F32) (hw : w = 2 ∨ w = 3) (hl : 4 ≤ s.length) :
    agc s medianF w t = .ub := by
  obtain ⟨x, y, r, rfl⟩ : ∃ x y r, s = x :: y :: r := by
    match s, hl with
    | x :: y :: r, _ => exact ⟨x, y, r, rfl⟩
  have hodd : (if w % 2 = 0 then w + 1 else w) = 3 := by rcases hw with rfl | rfl <;> rfl
  unfold agc
  simp only [hodd]
  rw [if_neg (by omega), if_neg (by decide)]
  have hwin : window (x :: y :: r) 0 2 = .ok [x, y] := by
    unfold window
    rw [if_pos (by omega)]
    rfl
  have h1 : ∀ f : Nat → List F32 → Res (List F32), forRange f 0 (3 / 2) (List.replicate (x :: y :: r).length 0) =
      (f 0 (List.replicate (x :: y :: r).length 0)).bind fun s => .ok s := fun f => rfl
  rw [h1]
  simp only [Nat.reduceDiv, Nat.add_zero, Nat.reduceAdd, hwin, Res.ok_bind, C103_pair_refuted]
  rfl

end Verif.Signal
