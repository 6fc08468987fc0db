import Verif.Signal.Single
import Verif.Signal.Ramp
import Verif.Props.AGC
import Mathlib.Analysis.Real.Pi.Bounds
import Mathlib.Analysis.SpecialFunctions.Trigonometric.Bounds

/-!
# C94: tapers in single precision
-/

namespace Verif.Signal
open Verif.FP32

/-! ### The factors lie between zero and one -/

theorem ratio_le {w r : ℚ} (hr : IsSingle r) (h0 : 0 < r) (hw0 : 0 ≤ w) (hw : w ≤ r) :
    -1 ≤ rnd (rnd (w - r) / r) ∧ rnd (rnd (w - r) / r) ≤ 0 := by
  have h1 : -r ≤ rnd (w - r) := rnd_ge hr.neg (by linarith)
  have h2 : rnd (w - r) ≤ 0 := rnd_nonpos (by linarith)
  refine ⟨rnd_ge isSingle_one.neg ?_, rnd_nonpos (div_nonpos_of_nonpos_of_nonneg h2 h0.le)⟩
  rw [le_div_iff₀ h0]
  linarith

theorem linearF_mem {w r : ℚ} (hr : IsSingle r) (h0 : 0 < r) (hw0 : 0 ≤ w) (hw : w ≤ r) :
    0 ≤ linearF w r ∧ linearF w r ≤ 1 := by
  obtain ⟨h1, h2⟩ := ratio_le hr h0 hw0 hw
  unfold linearF
  rw [abs_of_nonpos h2]
  exact ⟨rnd_nonneg (by linarith), rnd_le isSingle_one (by linarith)⟩

theorem isSingle_half : IsSingle (1 / 2) := ⟨1, -1, by norm_num, by norm_num, by norm_num⟩

theorem cosineF_mem {cosf : ℚ → ℚ} (hc : ∀ x, |cosf x| ≤ 1) (w r : ℚ) : 0 ≤ cosineF cosf w r ∧ cosineF cosf w r ≤ 1 := by
  unfold cosineF
  generalize rnd (rnd (piF * rnd (w - r)) / r) = a
  have h := hc a
  rw [abs_le] at h
  have h1 : -(1 / 2) ≤ rnd (1 / 2 * cosf a) := rnd_ge isSingle_half.neg (by linarith)
  have h2 : rnd (1 / 2 * cosf a) ≤ 1 / 2 := rnd_le isSingle_half (by linarith)
  exact ⟨rnd_nonneg (by linarith), rnd_le isSingle_one (by linarith)⟩

theorem cosineSquareF_mem {cosf pow2 : ℚ → ℚ} (hc : ∀ x, |cosf x| ≤ 1) (hp : ∀ x, 0 ≤ x → x ≤ 1 → 0 ≤ pow2 x ∧ pow2 x ≤ 1) (w r : ℚ) :
    0 ≤ cosineSquareF cosf pow2 w r ∧ cosineSquareF cosf pow2 w r ≤ 1 := by
  unfold cosineSquareF
  obtain ⟨h1, h2⟩ := cosineF_mem hc w r
  obtain ⟨h3, h4⟩ := hp _ h1 h2
  exact ⟨rnd_nonneg h3, rnd_le isSingle_one h4⟩

/-- A ramp whose factors, at the places where a taper takes them, do not amplify. -/
def Damps (f : ℚ → ℚ → ℚ) : Prop := ∀ j n : Nat, 1 ≤ j → j ≤ n → 0 ≤ (called f j n).val ∧ (called f j n).val ≤ 1

theorem damps_linear : Damps linearF := by
  intro j n hj hn
  have h1 : (0 : ℚ) < rnd n := lt_of_lt_of_le one_pos (rnd_ge isSingle_one (by exact_mod_cast (by omega : 1 ≤ n)))
  exact linearF_mem (isSingle_rnd _) h1 (rnd_nonneg (by positivity)) (rnd_mono (by exact_mod_cast hn))

theorem damps_cosine {cosf : ℚ → ℚ} (hc : ∀ x, |cosf x| ≤ 1) : Damps (cosineF cosf) := fun _ _ _ _ => cosineF_mem hc _ _

theorem damps_square {cosf pow2 : ℚ → ℚ} (hc : ∀ x, |cosf x| ≤ 1) (hp : ∀ x, 0 ≤ x → x ≤ 1 → 0 ≤ pow2 x ∧ pow2 x ≤ 1) :
    Damps (cosineSquareF cosf pow2) := fun _ _ _ _ => cosineSquareF_mem hc hp _ _

/-! ### Tapers that end -/

theorem taper_inv {V : Type} [Mul V] {isZero : V → Bool} {f : Nat → Nat → V} {s out : List V} {left right : Nat}
    (h : taper isZero f 2 s left right = .ok out) :
    ∃ k, (∀ i (h : i < s.length), i < k → isZero s[i] = true) ∧ ∃ hk : k < s.length, isZero s[k] = false ∧
      left < s.length - k ∧ right < s.length - k := by
  rw [taper] at h
  split at h
  · cases h
  rename_i hlr
  rw [not_not] at hlr
  have hpos : 0 < s.length := by omega
  rw [readAt_ok hpos, Res.ok_bind] at h
  cases hz : isZero s[0] with
  | false => exact ⟨0, fun i _ hi => absurd hi (by omega), hpos, hz, by omega, by omega⟩
  | true =>
    rw [hz] at h
    simp only [↓reduceIte] at h
    have hsplit := List.takeWhile_append_dropWhile (p := isZero) (l := s)
    have hall : ∀ x ∈ s.takeWhile isZero, isZero x = true := by
      intro x hx
      exact List.all_eq_true.1 List.all_takeWhile x hx
    generalize ht : s.takeWhile isZero = m at *
    generalize hd : s.dropWhile isZero = t at *
    by_cases htl : 0 < t.length
    · rw [readAt_ok htl, Res.ok_bind] at h
      cases hz0 : isZero t[0] with
      | true => rw [hz0] at h; cases h
      | false =>
        rw [hz0] at h
        simp only [Bool.false_eq_true, ↓reduceIte] at h
        rw [taper] at h
        split at h
        · cases h
        rename_i hlr2
        rw [not_not] at hlr2
        have hlen : s.length = m.length + t.length := by rw [← hsplit, List.length_append]
        refine ⟨m.length, ?_, by omega, ?_, by omega, by omega⟩
        · intro i hi him
          apply hall
          have : s[i] = m[i] := by
            have e : (m ++ t)[i]'(by rw [hsplit]; exact hi) = m[i] := List.getElem_append_left him
            rw [← e]
            congr 1
            exact hsplit.symm
          rw [this]
          exact List.getElem_mem _
        · have : s[m.length]'(by omega) = t[0] := by
            have e : (m ++ t)[m.length]'(by rw [List.length_append]; omega) = t[0] := by
              rw [List.getElem_append_right (le_refl _)]
              congr 1
              omega
            rw [← e]
            congr 1
            exact hsplit.symm
          rw [this, hz0]
    · exfalso
      have : readAt t 0 = (.ub : Res V) := by
        unfold readAt
        rw [List.getElem?_eq_none (by omega)]
      rw [this] at h
      cases h

/-! ## The property -/

theorem mul_damps {x f : Single} (hx : IsSingle x.val) (h0 : 0 ≤ f.val) (h1 : f.val ≤ 1) :
    IsSingle (x * f).val ∧ |(x * f).val| ≤ |x.val| ∧ 0 ≤ x.val * (x * f).val := by
  have he : (x * f).val = rnd (x.val * f.val) := rfl
  rw [he]
  refine ⟨isSingle_rnd _, rnd_abs_le hx.abs ?_, ?_⟩
  · rw [abs_mul, abs_of_nonneg h0]
    have := abs_nonneg x.val
    nlinarith
  · rcases le_total 0 x.val with h | h
    · exact mul_nonneg h (rnd_nonneg (mul_nonneg h h0))
    · exact mul_nonneg_of_nonpos_of_nonpos h (rnd_nonpos (mul_nonpos_of_nonpos_of_nonneg h h0))

theorem sign_trans {a b c : ℚ} (h1 : |c| ≤ |b|) (h2 : 0 ≤ b * c) (h3 : 0 ≤ a * b) : 0 ≤ a * c := by
  by_cases hb : b = 0
  · rw [hb, abs_zero] at h1
    rw [abs_nonpos_iff.1 h1, mul_zero]
  · have h4 : 0 ≤ a * c * (b * b) := by
      have := mul_nonneg h3 h2
      nlinarith
    have h5 : 0 < b * b := mul_self_pos.2 hb
    by_contra hc
    have := mul_neg_of_neg_of_pos (lt_of_not_ge hc) h5
    linarith

/-- C94, amplitudes: a taper by a built-in ramp, of any trace of finite floats and with any lengths, if it ends, leaves as many
samples, none of them larger in magnitude than before and none with another sign. Of `cosf` and of squaring by `pow` only the
ranges are used. -/
theorem C94_amplitude (cosf pow2 : ℚ → ℚ) (hc : ∀ x, |cosf x| ≤ 1) (hp : ∀ x, 0 ≤ x → x ≤ 1 → 0 ≤ pow2 x ∧ pow2 x ≤ 1)
    (f : ℚ → ℚ → ℚ) (hf : f = linearF ∨ f = cosineF cosf ∨ f = cosineSquareF cosf pow2) (s out : List Single) (hs : ∀ x ∈ s, IsSingle x.val) (left right : Nat)
    (h64 : s.length < 2 ^ 64) (h : taper Single.isZero (called f) 2 s left right = .ok out) :
    out.length = s.length ∧ ∀ (i : Nat) (x y : Single), s[i]? = some x → out[i]? = some y →
      IsSingle y.val ∧ |y.val| ≤ |x.val| ∧ 0 ≤ x.val * y.val := by
  have hf : Damps f := by
    rcases hf with rfl | rfl | rfl
    · exact damps_linear
    · exact damps_cosine hc
    · exact damps_square hc hp
  obtain ⟨k, h1, hk, h2, h3, h4⟩ := taper_inv h
  obtain ⟨out', e, e1, e2⟩ := C41_taper_partial Single.isZero (called f) s left right k h1 hk h2 h3 h4 h64 0
  rw [h, Res.ok.injEq] at e
  subst e
  refine ⟨e1, fun i x y hx hy => ?_⟩
  have hi : i < s.length := by
    by_contra hc
    rw [List.getElem?_eq_none (by omega)] at hx
    cases hx
  rw [e2 i hi, Option.some.injEq] at hy
  rw [List.getElem?_eq_getElem hi, Option.some.injEq] at hx
  have hxs : IsSingle x.val := by rw [← hx]; exact hs _ (List.getElem_mem _)
  rw [hx] at hy
  subst hy
  have hid : IsSingle x.val ∧ |x.val| ≤ |x.val| ∧ 0 ≤ x.val * x.val := ⟨hxs, le_refl _, mul_self_nonneg _⟩
  by_cases hik : i < k
  · rw [if_pos hik]
    exact hid
  · rw [if_neg hik]
    dsimp only
    generalize hy : (if i < k + left then x * called f (i - k + 1) left else x) = y
    have hstep : IsSingle y.val ∧ |y.val| ≤ |x.val| ∧ 0 ≤ x.val * y.val := by
      subst hy
      by_cases hl : i < k + left
      · rw [if_pos hl]
        obtain ⟨g1, g2⟩ := hf (i - k + 1) left (by omega) (by omega)
        exact mul_damps hxs g1 g2
      · rw [if_neg hl]
        exact hid
    by_cases hr : s.length - right ≤ i
    · rw [if_pos hr]
      obtain ⟨g1, g2⟩ := hf (s.length - i) right (by omega) (by omega)
      obtain ⟨q1, q2, q3⟩ := mul_damps hstep.1 g1 g2
      exact ⟨q1, le_trans q2 hstep.2.1, sign_trans q2 q3 hstep.2.2⟩
    · rw [if_neg hr]
      exact hstep

example : ∃ out, taper Single.isZero (called linearF) 2 [⟨0⟩, ⟨3⟩, ⟨-5⟩, ⟨7⟩, ⟨8⟩] 2 1 = .ok out ∧
    (∀ x ∈ [(⟨0⟩ : Single), ⟨3⟩, ⟨-5⟩, ⟨7⟩, ⟨8⟩], IsSingle x.val) := by
  obtain ⟨out, e, -⟩ := C41_taper_partial Single.isZero (called linearF) [⟨0⟩, ⟨3⟩, ⟨-5⟩, ⟨7⟩, ⟨8⟩] 2 1 1
    (by decide) (by decide) (by decide) (by decide) (by decide) (by decide) 0
  refine ⟨out, e, ?_⟩
  have : ∀ n : ℤ, |n| < 2 ^ 24 → IsSingle n := fun n h => isSingle_int h
  simp only [List.mem_cons, List.not_mem_nil, or_false, forall_eq_or_imp, forall_eq]
  exact ⟨by exact_mod_cast this 0 (by norm_num), by exact_mod_cast this 3 (by norm_num), by exact_mod_cast this (-5) (by norm_num),
    by exact_mod_cast this 7 (by norm_num), by exact_mod_cast this 8 (by norm_num)⟩

theorem rnd_nat {n : Nat} (h : n < 2 ^ 24) : rnd n = n := by
  have := rnd_int (n := (n : ℤ)) (by rw [abs_of_nonneg (by positivity)]; exact_mod_cast h)
  exact_mod_cast this

theorem rnd_sub {j n : Nat} (hj : j ≤ n) (hn : n < 2 ^ 24) : rnd ((j : ℚ) - n) = (j : ℚ) - n := by
  have := rnd_int (n := (j : ℤ) - n) (by rw [abs_lt]; constructor <;> omega)
  push_cast at this
  exact this

/-- C94, the linear ramp: for lengths up to `2^22` samples the factors are within `2^-24` of `j/n`, rise strictly from above
zero and end with exactly one. -/
theorem C94_linear (n : Nat) (hn : 1 ≤ n) (hn' : n ≤ 2 ^ 22) :
    (∀ j, 1 ≤ j → j ≤ n → |(called linearF j n).val - (j : ℚ) / n| ≤ 1 / 2 ^ 24 ∧ 0 < (called linearF j n).val) ∧
    (∀ i j, 1 ≤ i → i < j → j ≤ n → (called linearF i n).val < (called linearF j n).val) ∧ (called linearF n n).val = 1 := by
  have hn0 : (0 : ℚ) < n := by exact_mod_cast hn
  have hinv : (1 : ℚ) / 2 ^ 22 ≤ 1 / n := by
    apply one_div_le_one_div_of_le hn0
    exact_mod_cast hn'
  have herr : ∀ j, 1 ≤ j → j ≤ n → |(called linearF j n).val - (j : ℚ) / n| ≤ 1 / 2 ^ 24 := by
    intro j hj hjn
    have hj0 : (0 : ℚ) ≤ j := by positivity
    have hjn' : (j : ℚ) ≤ n := by exact_mod_cast hjn
    show |linearF (rnd j) (rnd n) - _| ≤ _
    unfold linearF
    rw [rnd_nat (n := j) (by omega), rnd_nat (n := n) (by omega), rnd_sub hjn (by omega)]
    have hx1 : -1 ≤ ((j : ℚ) - n) / n := by rw [le_div_iff₀ hn0]; linarith
    have hx0 : ((j : ℚ) - n) / n ≤ 0 := div_nonpos_of_nonpos_of_nonneg (by linarith) hn0.le
    have hxe : ((j : ℚ) - n) / n = (j : ℚ) / n - 1 := by field_simp
    have hjp : (0 : ℚ) < (j : ℚ) / n := div_pos (by exact_mod_cast hj) hn0
    have e1 : |rnd (((j : ℚ) - n) / n) - ((j : ℚ) - n) / n| ≤ 2 ^ (-24 : ℤ) / 2 :=
      rnd_err_lt (by rw [abs_of_nonpos hx0]; norm_num; linarith) (by norm_num)
    have q1 : -1 ≤ rnd (((j : ℚ) - n) / n) := rnd_ge isSingle_one.neg hx1
    have q2 : rnd (((j : ℚ) - n) / n) ≤ 0 := rnd_nonpos hx0
    generalize rnd (((j : ℚ) - n) / n) = q at *
    rw [abs_of_nonpos q2]
    have e2 : |rnd (1 - -q) - (1 - -q)| ≤ 2 ^ (-24 : ℤ) / 2 := by
      by_cases hq : q = 0
      · rw [hq]
        have := rnd_single isSingle_one
        rw [neg_zero, sub_zero, this, sub_self, abs_zero]
        positivity
      · have : q < 0 := lt_of_le_of_ne q2 hq
        exact rnd_err_lt (by rw [abs_of_nonneg (by linarith)]; norm_num; linarith) (by norm_num)
    rw [abs_le] at e1 e2 ⊢
    norm_num at e1 e2 ⊢
    constructor <;> linarith
  refine ⟨fun j hj hjn => ⟨herr j hj hjn, ?_⟩, fun i j hi hij hj => ?_, ?_⟩
  · have h1 := herr j hj hjn
    have h2 : (1 : ℚ) / n ≤ (j : ℚ) / n := by
      apply div_le_div_of_nonneg_right _ hn0.le
      exact_mod_cast hj
    rw [abs_le] at h1
    norm_num at h1 hinv h2
    linarith
  · have h1 := herr i hi (by omega)
    have h2 := herr j (by omega) hj
    have h3 : (i : ℚ) / n + 1 / n ≤ (j : ℚ) / n := by
      rw [← add_div]
      apply div_le_div_of_nonneg_right _ hn0.le
      exact_mod_cast hij
    rw [abs_le] at h1 h2
    norm_num at h1 h2 hinv h3
    linarith
  · show linearF (rnd n) (rnd n) = 1
    unfold linearF
    rw [sub_self, rnd_zero, zero_div, rnd_zero, abs_zero, sub_zero]
    exact rnd_single isSingle_one

/-- The length of the longest SEG-Y trace. -/
example : 1 ≤ 32767 ∧ 32767 ≤ 2 ^ 22 := by decide

/-- The argument of the cosine. -/
theorem arg_err {j n : Nat} (hj : 1 ≤ j) (hjn : j ≤ n) (hn : n < 2 ^ 24) :
    |((rnd (rnd (piF * rnd (rnd j - rnd n)) / rnd n) : ℚ) : ℝ) - Real.pi * ((j : ℝ) - n) / n| ≤ 1 / 2 ^ 21 := by
  rw [rnd_nat (n := j) (by omega), rnd_nat hn, rnd_sub hjn hn]
  have hn0 : (0 : ℚ) < n := by exact_mod_cast (by omega : 0 < n)
  have hj0 : (0 : ℚ) < j := by exact_mod_cast hj
  have hjn' : (j : ℚ) ≤ n := by exact_mod_cast hjn
  have hpi : |((piF : ℚ) : ℝ) - Real.pi| ≤ 1 / 2 ^ 23 := by
    have h1 := Real.pi_gt_d20
    have h2 := Real.pi_lt_d20
    unfold piF
    push_cast
    rw [abs_le]
    constructor <;> norm_num at h1 h2 ⊢ <;> linarith
  have hp0 : (0 : ℚ) < piF := by unfold piF; norm_num
  have hp4 : piF < 315 / 100 := by unfold piF; norm_num
  -- the exact quotient in single precision pi
  have h1 : |rnd (piF * ((j : ℚ) - n)) - piF * ((j : ℚ) - n)| ≤ piF * n / 2 ^ 24 := by
    by_cases hd : (j : ℚ) - n = 0
    · rw [hd, mul_zero, rnd_zero, sub_zero, abs_zero]
      positivity
    · have habs : |(j : ℚ) - n| ≤ n := by rw [abs_le]; constructor <;> linarith
      have hone : 1 ≤ |(j : ℚ) - n| := by
        have : j < n := lt_of_le_of_ne hjn (fun h => hd (by rw [h, sub_self]))
        have : (j : ℚ) + 1 ≤ n := by exact_mod_cast this
        rw [abs_of_nonpos (by linarith)]
        linarith
      refine le_trans (rnd_err ?_) ?_
      · rw [abs_mul, abs_of_pos hp0]
        have : (2 : ℚ) ^ (-126 : ℤ) ≤ 1 := by norm_num
        have h3 : 1 ≤ piF := by unfold piF; norm_num
        nlinarith
      · rw [abs_mul, abs_of_pos hp0]
        gcongr
  generalize hP : rnd (piF * ((j : ℚ) - n)) = P at *
  have h2 : |P / n - piF * ((j : ℚ) - n) / n| ≤ piF / 2 ^ 24 := by
    rw [← sub_div, abs_div, abs_of_pos hn0, div_le_iff₀ hn0]
    refine le_trans h1 (le_of_eq ?_)
    ring
  have h3 : |piF * ((j : ℚ) - n) / n| ≤ piF := by
    rw [abs_div, abs_of_pos hn0, div_le_iff₀ hn0, abs_mul, abs_of_pos hp0]
    have : |(j : ℚ) - n| ≤ n := by rw [abs_le]; constructor <;> linarith
    gcongr
  have h4 : |rnd (P / n) - P / n| ≤ 2 ^ (-22 : ℤ) / 2 := by
    refine rnd_err_lt ?_ (by norm_num)
    rw [abs_le] at h2 h3
    rw [abs_lt]
    norm_num at h2 h3 ⊢
    constructor <;> linarith
  have h5 : |rnd (P / n) - piF * ((j : ℚ) - n) / n| ≤ 3 / 2 ^ 23 := by
    rw [abs_le] at h2 h4 ⊢
    norm_num at h2 h4 ⊢
    constructor <;> linarith
  have h6 : |((rnd (P / n) : ℚ) : ℝ) - (piF : ℝ) * ((j : ℝ) - n) / n| ≤ 3 / 2 ^ 23 := by
    have := (Rat.cast_le (K := ℝ)).2 h5
    push_cast at this
    exact this
  have h7 : |(piF : ℝ) * ((j : ℝ) - n) / n - Real.pi * ((j : ℝ) - n) / n| ≤ 1 / 2 ^ 23 := by
    have hn0' : (0 : ℝ) < n := by exact_mod_cast hn0
    have hj0' : (0 : ℝ) < j := by exact_mod_cast hj0
    have hjn'' : (j : ℝ) ≤ n := by exact_mod_cast hjn
    rw [← sub_div, ← sub_mul, abs_div, abs_of_pos hn0', div_le_iff₀ hn0', abs_mul]
    have : |(j : ℝ) - n| ≤ n := by rw [abs_le]; constructor <;> linarith
    gcongr
  rw [abs_le] at h6 h7 ⊢
  norm_num at h6 h7 ⊢
  constructor <;> linarith

/-- What is asked of `cosf`: within 9/16 of a unit in the last place next to one, and no larger than one in magnitude. -/
def GoodCos (cosf : ℚ → ℚ) : Prop := ∀ x, |cosf x| ≤ 1 ∧ |((cosf x : ℚ) : ℝ) - Real.cos x| ≤ 9 / 16 / 2 ^ 24

/-- C94, the cosine ramp: for lengths below `2^24` samples the factors are within `2^-21` of those of the formula in exact
arithmetic. -/
theorem C94_cosine (cosf : ℚ → ℚ) (hc : GoodCos cosf) (n j : Nat) (hn : n < 2 ^ 24) (hj : 1 ≤ j) (hjn : j ≤ n) :
    |(((called (cosineF cosf) j n).val : ℚ) : ℝ) - cosineTaper j n| ≤ 1 / 2 ^ 21 := by
  have ha := arg_err hj hjn hn
  show |((cosineF cosf (rnd j) (rnd n) : ℚ) : ℝ) - _| ≤ _
  unfold cosineF cosineTaper
  generalize rnd (rnd (piF * rnd (rnd j - rnd n)) / rnd n) = a at *
  generalize Real.pi * ((j : ℝ) - n) / n = t at *
  obtain ⟨h1, h2⟩ := hc a
  have h3 := Real.abs_cos_sub_cos_le a t
  have h4 : |rnd (1 / 2 * cosf a) - 1 / 2 * cosf a| ≤ 2 ^ (-24 : ℤ) / 2 := by
    refine rnd_err_lt ?_ (by norm_num)
    rw [abs_mul]
    norm_num
    linarith
  have g1 : -(1 / 2) ≤ rnd (1 / 2 * cosf a) := rnd_ge isSingle_half.neg (by rw [abs_le] at h1; linarith)
  have g2 : rnd (1 / 2 * cosf a) ≤ 1 / 2 := rnd_le isSingle_half (by rw [abs_le] at h1; linarith)
  generalize rnd (1 / 2 * cosf a) = c at *
  have h5 : |rnd (1 / 2 + c) - (1 / 2 + c)| ≤ 2 ^ (-23 : ℤ) / 2 := by
    refine rnd_err_lt ?_ (by norm_num)
    rw [abs_lt]
    norm_num
    constructor <;> linarith
  have h4' : |(c : ℝ) - 1 / 2 * (cosf a : ℝ)| ≤ 1 / 2 ^ 25 := by
    have : |c - 1 / 2 * cosf a| ≤ 1 / 2 ^ 25 := by norm_num at h4 ⊢; exact h4
    have := (Rat.cast_le (K := ℝ)).2 this
    push_cast at this
    exact this
  have h5' : |((rnd (1 / 2 + c) : ℚ) : ℝ) - (1 / 2 + c)| ≤ 1 / 2 ^ 24 := by
    have : |rnd (1 / 2 + c) - (1 / 2 + c)| ≤ 1 / 2 ^ 24 := by norm_num at h5 ⊢; exact h5
    have := (Rat.cast_le (K := ℝ)).2 this
    push_cast at this
    exact this
  have h6 := le_trans h3 ha
  rw [abs_le] at h2 h4' h5' h6 ⊢
  norm_num at h2 h4' h5' h6 ⊢
  constructor <;> linarith

/-- There is such a function of floats, with one at zero. -/
theorem goodCos_exists : ∃ cosf : ℚ → ℚ, (∀ x, IsSingle (cosf x)) ∧ GoodCos cosf ∧ cosf 0 = 1 := by
  have h : ∀ x : ℚ, ∃ c : ℚ, IsSingle c ∧ (|c| ≤ 1 ∧ |(c : ℝ) - Real.cos x| ≤ 9 / 16 / 2 ^ 24) ∧ (x = 0 → c = 1) := by
    intro x
    by_cases hx : x = 0
    · refine ⟨1, isSingle_one, ⟨by norm_num, ?_⟩, fun _ => rfl⟩
      rw [hx]
      simp
      norm_num
    · obtain ⟨q, h1, h2⟩ := exists_rat_btwn (show Real.cos x < Real.cos x + 1 / 2 ^ 40 by norm_num)
      obtain ⟨c, hc⟩ : ∃ c, c = min 1 q := ⟨_, rfl⟩
      have hr : (-1 : ℝ) ≤ q := le_trans (Real.neg_one_le_cos x) h1.le
      have hq : -1 ≤ q := by
        have : ((-1 : ℚ) : ℝ) ≤ q := by push_cast; exact hr
        exact_mod_cast this
      have c1 : |c| ≤ 1 := by
        rw [hc, abs_le]
        exact ⟨le_min (by norm_num) hq, min_le_left _ _⟩
      have c2 : |(c : ℝ) - Real.cos x| ≤ 1 / 2 ^ 40 := by
        have := Real.cos_le_one x
        rw [hc]
        rcases le_total 1 q with hle | hle
        · have hle' : (1 : ℝ) ≤ q := by exact_mod_cast hle
          rw [min_eq_left hle, abs_le]
          push_cast
          constructor <;> linarith
        · rw [min_eq_right hle, abs_le]
          constructor <;> linarith
      refine ⟨rnd c, isSingle_rnd c, ⟨rnd_abs_le isSingle_one c1, ?_⟩, fun h => absurd h hx⟩
      have c3 : |rnd c - c| ≤ 1 / 2 ^ 25 := by
        rcases lt_or_eq_of_le c1 with h | h
        · refine le_trans (rnd_err_lt (E := -24) (by norm_num; exact h) (by norm_num)) (by norm_num)
        · rcases eq_or_eq_neg_of_abs_eq h with h | h
          · rw [h, rnd_single isSingle_one]; norm_num
          · rw [h, rnd_single isSingle_one.neg]; norm_num
      have c4 : |((rnd c : ℚ) : ℝ) - (c : ℝ)| ≤ 1 / 2 ^ 25 := by
        have := (Rat.cast_le (K := ℝ)).2 c3
        push_cast at this
        exact this
      rw [abs_le] at c2 c4 ⊢
      norm_num at c2 c4 ⊢
      constructor <;> linarith
  choose f hf using h
  exact ⟨f, fun x => (hf x).1, fun x => (hf x).2.1, (hf 0).2.2 rfl⟩

/-- C94, the squared cosine ramp, with a `pow` within `2^-50`: within `2^-19` of the formula. -/
theorem C94_cosine_square (cosf pow2 : ℚ → ℚ) (hc : GoodCos cosf) (hp : ∀ x, 0 ≤ x → x ≤ 1 → |pow2 x - x ^ 2| ≤ 1 / 2 ^ 50)
    (n j : Nat) (hn : n < 2 ^ 24) (hj : 1 ≤ j) (hjn : j ≤ n) :
    |(((called (cosineSquareF cosf pow2) j n).val : ℚ) : ℝ) - cosineSquareTaper j n| ≤ 1 / 2 ^ 19 := by
  have h1 : |((cosineF cosf (rnd j) (rnd n) : ℚ) : ℝ) - cosineTaper j n| ≤ 1 / 2 ^ 21 := C94_cosine cosf hc n j hn hj hjn
  obtain ⟨g1, g2⟩ := cosineF_mem (fun x => (hc x).1) (rnd j) (rnd n)
  have t0 : |cosineTaper j n| ≤ 1 := by
    unfold cosineTaper
    have := Real.abs_cos_le_one (Real.pi * ((j : ℝ) - n) / n)
    rw [abs_le] at this ⊢
    constructor <;> linarith
  show |((cosineSquareF cosf pow2 (rnd j) (rnd n) : ℚ) : ℝ) - _| ≤ _
  unfold cosineSquareF cosineSquareTaper
  have h2 := hp _ g1 g2
  generalize cosineF cosf (rnd j) (rnd n) = c at *
  generalize cosineTaper j n = t at *
  have hc2 : c ^ 2 ≤ 1 := by nlinarith
  have h3 : |rnd (pow2 c) - pow2 c| ≤ 2 ^ (-23 : ℤ) / 2 := by
    refine rnd_err_lt ?_ (by norm_num)
    have := sq_nonneg c
    rw [abs_le] at h2
    rw [abs_lt]
    norm_num at h2 ⊢
    constructor <;> linarith
  have h4 : |rnd (pow2 c) - c ^ 2| ≤ 1 / 2 ^ 23 := by
    rw [abs_le] at h2 h3 ⊢
    norm_num at h2 h3 ⊢
    constructor <;> linarith
  have h5 : |((rnd (pow2 c) : ℚ) : ℝ) - (c : ℝ) ^ 2| ≤ 1 / 2 ^ 23 := by
    have := (Rat.cast_le (K := ℝ)).2 h4
    push_cast at this
    exact this
  have hcr : |(c : ℝ)| ≤ 1 := by
    rw [abs_of_nonneg (by exact_mod_cast g1)]
    exact_mod_cast g2
  have h6 : |(c : ℝ) ^ 2 - t ^ 2| ≤ 2 / 2 ^ 21 := by
    rw [sq_sub_sq, abs_mul]
    have : |(c : ℝ) + t| ≤ 2 := by
      rw [abs_le] at hcr t0 ⊢
      constructor <;> linarith
    have h7 := abs_nonneg ((c : ℝ) - t)
    calc |(c : ℝ) + t| * |(c : ℝ) - t| ≤ 2 * (1 / 2 ^ 21) := by gcongr
      _ = 2 / 2 ^ 21 := by ring
  rw [abs_le] at h5 h6 ⊢
  norm_num at h5 h6 ⊢
  constructor <;> linarith

/-- The formula gives one at the end, and so do the programs, if the cosine of zero is one. -/
theorem C94_cosine_end (cosf : ℚ → ℚ) (h : cosf 0 = 1) (n : Nat) : (called (cosineF cosf) n n).val = 1 := by
  show cosineF cosf (rnd n) (rnd n) = 1
  unfold cosineF
  rw [sub_self, rnd_zero, mul_zero, rnd_zero, zero_div, rnd_zero, h, mul_one, rnd_single isSingle_half]
  norm_num
  exact rnd_single isSingle_one

/-- Near the start of a long ramp the cosine is minus one. -/
theorem cos_start (cosf : ℚ → ℚ) (hs : ∀ x, IsSingle (cosf x)) (hc : GoodCos cosf) (n : Nat) (hn : n < 2 ^ 24) (hn' : 16384 ≤ n) :
    cosf (rnd (rnd (piF * rnd (rnd (1 : Nat) - rnd n)) / rnd n)) = -1 := by
  have ha := arg_err (j := 1) (le_refl 1) (by omega) hn
  generalize rnd (rnd (piF * rnd (rnd (1 : Nat) - rnd n)) / rnd n) = a at *
  obtain ⟨h1, h2⟩ := hc a
  have hn0 : (16384 : ℝ) ≤ n := by exact_mod_cast hn'
  have hinv : Real.pi / n ≤ 3.1416 / 16384 := by
    have := Real.pi_lt_d4
    have := Real.pi_pos
    gcongr
  have hpos : 0 < Real.pi / n := div_pos Real.pi_pos (by linarith)
  have hd : |Real.pi + (a : ℝ)| ≤ 192 / 10 ^ 6 + 1 / 2 ^ 21 := by
    have e : Real.pi * (((1 : Nat) : ℝ) - n) / n = Real.pi / n - Real.pi := by
      have : (n : ℝ) ≠ 0 := by linarith
      push_cast
      field_simp
    rw [e] at ha
    rw [abs_le] at ha ⊢
    norm_num at ha hinv ⊢
    constructor <;> linarith
  have h3 := Real.one_sub_sq_div_two_le_cos (x := Real.pi + a)
  have h4 : Real.cos (Real.pi + a) = -Real.cos a := by rw [add_comm, Real.cos_add_pi]
  rw [h4] at h3
  have h5 : (Real.pi + (a : ℝ)) ^ 2 ≤ (192 / 10 ^ 6 + 1 / 2 ^ 21) ^ 2 := sq_le_sq' (by rw [abs_le] at hd; linarith) (by rw [abs_le] at hd; linarith)
  have h6 : ((cosf a : ℚ) : ℝ) < -1 + 1 / 2 ^ 24 := by
    rw [abs_le] at h2
    norm_num at h2 h5 ⊢
    linarith
  have h7 : cosf a < -1 + 1 / 2 ^ 24 := by
    have : ((cosf a : ℚ) : ℝ) < ((-1 + 1 / 2 ^ 24 : ℚ) : ℝ) := by push_cast; exact h6
    exact_mod_cast this
  obtain ⟨m, e, hm, he, hme⟩ := hs a
  rw [abs_le] at h1
  by_contra hne
  have h8 : -1 < cosf a := lt_of_le_of_ne h1.1 (Ne.symm hne)
  -- a float strictly between would have a finer last place than floats of that size have
  have hlt : |cosf a| < 1 := by rw [abs_lt]; norm_num at h7; constructor <;> linarith
  have hbig : (1 : ℚ) - 1 / 2 ^ 24 < |cosf a| := by
    rw [abs_of_neg (by norm_num at h7; linarith)]
    linarith
  rw [hme, abs_mul, abs_of_pos (Verif.FP.two_zpow_pos e)] at hlt hbig
  have hm' : |(m : ℚ)| ≤ 2 ^ 24 - 1 := by
    have : |m| ≤ 2 ^ 24 - 1 := by omega
    have : ((|m| : ℤ) : ℚ) ≤ ((2 ^ 24 - 1 : ℤ) : ℚ) := by exact_mod_cast this
    rw [Int.cast_abs] at this
    exact le_of_le_of_eq this (by norm_num)
  by_cases hE : e ≤ -24
  · have : (2 : ℚ) ^ e ≤ 2 ^ (-24 : ℤ) := zpow_le_zpow_right₀ (by norm_num) hE
    have h9 : |(m : ℚ)| * 2 ^ e ≤ (2 ^ 24 - 1) * 2 ^ (-24 : ℤ) := by
      have := abs_nonneg (m : ℚ)
      gcongr
    norm_num at h9 hbig
    linarith
  · obtain ⟨k, hk⟩ : ∃ k : ℕ, e = -23 + k := ⟨(e + 23).toNat, by omega⟩
    have h9 : |(m : ℚ)| * 2 ^ e = ((|m| * 2 ^ k : ℤ) : ℚ) / 2 ^ 23 := by
      rw [hk, zpow_add₀ (by norm_num), zpow_natCast]
      push_cast
      norm_num
      ring
    rw [h9] at hlt hbig
    rw [div_lt_one (by norm_num)] at hlt
    rw [lt_div_iff₀ (by norm_num)] at hbig
    have g1 : |m| * 2 ^ k < 2 ^ 23 := by exact_mod_cast hlt
    have g2 : ((2 ^ 23 - 1 : ℤ) : ℚ) < ((|m| * 2 ^ k : ℤ) : ℚ) := by
      refine lt_of_le_of_lt ?_ hbig
      norm_num
    have g3 : 2 ^ 23 - 1 < |m| * 2 ^ k := by exact_mod_cast g2
    omega

/-- C94 fails in one respect: cosine ramps of 16384 samples and more do not start above zero. Every trace that such a taper is
applied to loses the first sample behind the muted start, whatever it was; this is with a cosine as good as that of
the C library. -/
theorem C94_zero_refuted (cosf : ℚ → ℚ) (hs : ∀ x, IsSingle (cosf x)) (hc : GoodCos cosf) (s out : List Single) (left right : Nat)
    (h64 : s.length < 2 ^ 64) (hl : 16384 ≤ left) (hl' : left < 2 ^ 24)
    (h : taper Single.isZero (called (cosineF cosf)) 2 s left right = .ok out) :
    ∃ (k : Nat) (x y : Single), s[k]? = some x ∧ x.val ≠ 0 ∧ out[k]? = some y ∧ y.val = 0 := by
  obtain ⟨k, h1, hk, h2, h3, h4⟩ := taper_inv h
  obtain ⟨out', e, e1, e2⟩ := C41_taper_partial Single.isZero (called (cosineF cosf)) s left right k h1 hk h2 h3 h4 h64 0
  rw [h, Res.ok.injEq] at e
  subst e
  have hz : (called (cosineF cosf) 1 left).val = 0 := by
    show cosineF cosf (rnd (1 : Nat)) (rnd left) = 0
    unfold cosineF
    rw [cos_start cosf hs hc left hl' hl, mul_neg, mul_one, rnd_single isSingle_half.neg]
    norm_num
    exact rnd_zero
  have hm : (s[k] * called (cosineF cosf) 1 left).val = 0 := by
    show rnd (_ * _) = 0
    rw [hz, mul_zero, rnd_zero]
  refine ⟨k, s[k], _, List.getElem?_eq_getElem hk, ?_, e2 k hk, ?_⟩
  · intro hc0
    unfold Single.isZero at h2
    rw [hc0] at h2
    simp at h2
  · rw [if_neg (lt_irrefl k)]
    dsimp only
    rw [if_pos (show k < k + left by omega), Nat.sub_self, Nat.zero_add]
    split
    · show rnd (_ * _) = 0
      rw [hm, zero_mul, rnd_zero]
    · exact hm

example : ∃ (cosf : ℚ → ℚ) (out : List Single), GoodCos cosf ∧
    taper Single.isZero (called (cosineF cosf)) 2 (List.replicate 20000 ⟨1⟩) 16384 100 = .ok out ∧
    ∃ (k : Nat) (x y : Single), (List.replicate 20000 (⟨1⟩ : Single))[k]? = some x ∧ x.val ≠ 0 ∧ out[k]? = some y ∧ y.val = 0 := by
  obtain ⟨cosf, h1, h2, -⟩ := goodCos_exists
  obtain ⟨out, e, -⟩ := C41_taper_partial Single.isZero (called (cosineF cosf)) (List.replicate 20000 ⟨1⟩) 16384 100 0
    (fun i _ h => absurd h (by omega)) (by rw [List.length_replicate]; omega) (by rw [List.getElem_replicate]; rfl)
    (by rw [List.length_replicate]; omega) (by rw [List.length_replicate]; omega) (by rw [List.length_replicate]; omega) 0
  exact ⟨cosf, out, h2, e, C94_zero_refuted cosf h1 h2 _ out 16384 100 (by rw [List.length_replicate]; omega) (by omega) (by omega) e⟩

end Verif.Signal
