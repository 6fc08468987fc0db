import Verif.Props.TempFilter
import Verif.Props.Design
import Verif.FP.Extended
import Mathlib.RingTheory.PowerSeries.Basic
import Mathlib.Algebra.BigOperators.NatAntidiagonal
import Mathlib.Tactic.Positivity

/-!
C99 (the temporal filter in single precision).
-/

namespace Verif.Signal

open Verif.FP32 Verif.FP32.F32

/-! ### The recursive filter over any operations -/

section
variable {K : Type}

/-- What `iir` puts at sample `i`, from the samples of `w` before it: the terms are added one by one. -/
def sample [Add K] [Sub K] [Mul K] (N : Nat) (b a x z w : Nat → K) (i : Nat) : K :=
  (List.range (min i N)).foldl (fun s j => s + (b (j + 1) * x (i - (j + 1)) - a (j + 1) * w (i - (j + 1))))
    (if i < N then b 0 * x i + z i else b 0 * x i)

theorem foldl_congr_range {S : Type} (f g : S → Nat → S) : ∀ (n : Nat) (s : S),
    (∀ s j, j < n → f s j = g s j) → (List.range n).foldl f s = (List.range n).foldl g s := by
  intro n
  induction n with
  | zero => intro s _; rfl
  | succ n ih =>
    intro s h
    rw [List.range_succ, List.foldl_append, List.foldl_append, ih s (fun s j hj => h s j (by omega))]
    exact h _ n (by omega)

theorem iir_inner_run [Zero K] [Add K] [Sub K] [Mul K] (b a x : List K) (i m : Nat) (hmi : m ≤ i) (hb : m < b.length)
    (ha : m < a.length) (hx : i < x.length) (y : List K) (hy : i < y.length) :
    forRange (iirStep b a x i) 1 m y = .ok (y.set i ((List.range m).foldl (fun s j =>
      s + (sig b (j + 1) * sig x (i - (j + 1)) - sig a (j + 1) * sig y (i - (j + 1)))) (sig y i))) := by
  obtain ⟨y', e, h⟩ := forRange_inv (iirStep b a x i) (fun k y' => y' = y.set i ((List.range (k - 1)).foldl (fun s j =>
      s + (sig b (j + 1) * sig x (i - (j + 1)) - sig a (j + 1) * sig y (i - (j + 1)))) (sig y i))) m 1 y
    (by
      simp only [Nat.sub_self, List.range_zero, List.foldl_nil]
      apply List.ext_getElem?
      intro k
      by_cases hk : i = k
      · subst hk; rw [List.getElem?_set_self hy, sig_get hy]
      · rw [List.getElem?_set_ne hk]) (by
    intro j s h1 h2 hs
    have hsl : s.length = y.length := by rw [hs]; simp
    have hsi : sig s i = (List.range (j - 1)).foldl (fun s j =>
        s + (sig b (j + 1) * sig x (i - (j + 1)) - sig a (j + 1) * sig y (i - (j + 1)))) (sig y i) := by
      rw [hs]; exact sig_set_self _ hy
    have hsj : sig s (i - j) = sig y (i - j) := by rw [hs]; exact sig_set_ne _ (by omega)
    refine ⟨s.set i (sig s i + (sig b j * sig x (i - j) - sig a j * sig s (i - j))), ?_, ?_⟩
    · unfold iirStep
      rw [readAt_sig (by omega), Res.ok_bind, readAt_sig (by omega), Res.ok_bind, readAt_sig (by omega), Res.ok_bind,
        readAt_sig (by omega), Res.ok_bind, readAt_sig (by omega), Res.ok_bind, writeAt_ok _ (by omega)]
    · rw [hsi, hsj, hs, List.set_set]
      obtain ⟨j, rfl⟩ : ∃ k, j = k + 1 := ⟨j - 1, by omega⟩
      rw [Nat.add_sub_cancel, Nat.add_sub_cancel, List.range_succ, List.foldl_append]
      rfl)
  rw [e, h, Nat.add_sub_cancel_left]

/-- The recursive filter over any operations: every sample is the sum of its terms, in the order of the loop. -/
theorem iir_run [Zero K] [Add K] [Sub K] [Mul K] (N ns : Nat) (b a x y z : List K) (hN : 1 ≤ N) (hns : N ≤ ns)
    (hb : b.length = N + 1) (ha : a.length = N + 1) (hx : x.length = ns) (hy : y.length = ns) (hz : z.length = N) :
    ∃ w, iir N ns b a x y z = .ok w ∧ w.length = ns ∧
      ∀ i, i < ns → sig w i = sample N (sig b) (sig a) (sig x) (sig z) (sig w) i := by
  have keep : ∀ (s : List K) (k v i), i < k → sig s i = sample N (sig b) (sig a) (sig x) (sig z) (sig s) i →
      sig (s.set k v) i = sample N (sig b) (sig a) (sig x) (sig z) (sig (s.set k v)) i := by
    intro s k v i hik h
    rw [sig_set_ne _ (by omega), h]
    unfold sample
    apply foldl_congr_range
    intro t j _
    rw [sig_set_ne _ (by omega)]
  unfold iir
  rw [readAt_sig (by omega), Res.ok_bind, readAt_sig (by omega), Res.ok_bind, readAt_sig (by omega), Res.ok_bind,
    writeAt_ok _ (by omega), Res.ok_bind]
  obtain ⟨y1, e1, l1, d1⟩ := forRange_inv (iirHead b a x z)
    (fun k s => s.length = ns ∧ ∀ i, i < k → sig s i = sample N (sig b) (sig a) (sig x) (sig z) (sig s) i) (N - 1) 1
    (y.set 0 (sig b 0 * sig x 0 + sig z 0)) ⟨by simpa using hy, by
      intro i hi
      obtain rfl : i = 0 := by omega
      rw [sig_set_self _ (by omega)]
      unfold sample
      rw [if_pos (by omega), Nat.zero_min]
      rfl⟩ (by
    intro i s h1 h2 ⟨hl, hd⟩
    refine ⟨_, by
      unfold iirHead
      rw [readAt_sig (by omega), Res.ok_bind, readAt_sig (by omega), Res.ok_bind, readAt_sig (by omega), Res.ok_bind,
        writeAt_ok _ (by omega), Res.ok_bind,
        iir_inner_run b a x i i le_rfl (by omega) (by omega) (by omega) _ (by simp; omega)], ?_, ?_⟩
    · simpa using hl
    · intro k hk
      by_cases hki : k = i
      · subst hki
        rw [sig_set_self _ (by simp; omega), sig_set_self _ (by omega)]
        unfold sample
        rw [if_pos (by omega), Nat.min_eq_left (by omega)]
        apply foldl_congr_range
        intro t j hj
        rw [sig_set_ne (l := s.set _ _) _ (by omega)]
      · exact keep _ _ _ _ (by omega) (keep _ _ _ _ (by omega) (hd k (by omega))))
  rw [e1, Res.ok_bind]
  rw [show 1 + (N - 1) = N by omega] at d1
  obtain ⟨y2, e2, l2, d2⟩ := forRange_inv (iirTail N b a x)
    (fun k s => s.length = ns ∧ ∀ i, i < k → sig s i = sample N (sig b) (sig a) (sig x) (sig z) (sig s) i) (ns - N) N
    y1 ⟨l1, d1⟩ (by
    intro i s h1 h2 ⟨hl, hd⟩
    refine ⟨_, by
      unfold iirTail
      rw [readAt_sig (by omega), Res.ok_bind, readAt_sig (by omega), Res.ok_bind, writeAt_ok _ (by omega), Res.ok_bind,
        iir_inner_run b a x i N (by omega) (by omega) (by omega) (by omega) _ (by simp; omega)], ?_, ?_⟩
    · simpa using hl
    · intro k hk
      by_cases hki : k = i
      · subst hki
        rw [sig_set_self _ (by simp; omega), sig_set_self _ (by omega)]
        unfold sample
        rw [if_neg (by omega), Nat.min_eq_right (by omega)]
        apply foldl_congr_range
        intro t j hj
        rw [sig_set_ne (l := s.set _ _) _ (by omega)]
      · exact keep _ _ _ _ (by omega) (keep _ _ _ _ (by omega) (hd k (by omega))))
  rw [show N + (ns - N) = ns by omega] at d2
  exact ⟨y2, e2, l2, d2⟩

end

/-! ### Rounding of one operation and of a sum -/

theorem of_inv {x v : ℚ} (h : F32.of x = num v) : v = rnd x := by
  unfold F32.of at h
  split at h
  · injection h with h; exact h.symm
  · cases h

theorem add_inv {s t : F32} {v : ℚ} (h : s + t = num v) : ∃ p q, s = num p ∧ t = num q ∧ v = rnd (p + q) := by
  cases s with
  | num p =>
    cases t with
    | num q => rw [num_add] at h; exact ⟨p, q, rfl, rfl, of_inv h⟩
    | inf b => cases h
    | nan => cases h
  | inf b =>
    cases t with
    | num q => cases h
    | inf c =>
      have e : (if b = c then F32.inf b else nan) = num v := h
      split at e <;> cases e
    | nan => cases h
  | nan => cases t <;> cases h

theorem sub_inv {s t : F32} {v : ℚ} (h : s - t = num v) : ∃ p q, s = num p ∧ t = num q ∧ v = rnd (p - q) := by
  obtain ⟨p, q, h1, h2, h3⟩ := add_inv (s := s) (t := F32.neg t) h
  cases t with
  | num r =>
    have : q = -r := by
      have e : num (-r) = num q := h2
      injection e with e; exact e.symm
    exact ⟨p, r, h1, rfl, by rw [h3, this, ← sub_eq_add_neg]⟩
  | inf b => cases h2
  | nan => cases h2

/-- Every rounding changes a number by at most one part in `2^24` of it and of `2^-126`. -/
theorem rnd_err_all (x : ℚ) : |rnd x - x| ≤ 1 / 2 ^ 24 * (|x| + 2 ^ (-126 : ℤ)) := by
  have hp : (0 : ℚ) < 2 ^ (-126 : ℤ) := by positivity
  by_cases h : (2 : ℚ) ^ (-126 : ℤ) ≤ |x|
  · have := rnd_err h
    generalize (2 : ℚ) ^ (-126 : ℤ) = t at *
    linarith
  · have h2 : |x| < 2 ^ ((-149 : ℤ) + 24) := by
      refine lt_trans (not_le.mp h) ?_
      exact zpow_lt_zpow_right₀ (by norm_num) (by norm_num)
    have := rnd_err_lt h2 (by norm_num)
    have e : (2 : ℚ) ^ (-149 : ℤ) / 2 = 1 / 2 ^ 24 * 2 ^ (-126 : ℤ) := by
      rw [show (-149 : ℤ) = -126 + -23 by norm_num, zpow_add₀ (by norm_num)]
      norm_num
    rw [e] at this
    have ha := abs_nonneg x
    generalize (2 : ℚ) ^ (-126 : ℤ) = t at *
    linarith

section
variable {u ν : ℚ} (hu : 0 ≤ u) (hν : 0 ≤ ν) (herr : ∀ x : ℚ, |rnd x - x| ≤ u * (|x| + ν))
include hu hν herr

/-- One pair of products and their difference. -/
theorem term_err (β ξ α η : ℚ) :
    |rnd (rnd (β * ξ) - rnd (α * η)) - (β * ξ - α * η)| ≤ ((1 + u) ^ 2 - 1) * (|β * ξ| + |α * η| + 3 * ν) := by
  have h1 := herr (β * ξ)
  have h2 := herr (α * η)
  have h3 := herr (rnd (β * ξ) - rnd (α * η))
  generalize rnd (rnd (β * ξ) - rnd (α * η)) = v at *
  generalize rnd (β * ξ) = p at *
  generalize rnd (α * η) = q at *
  generalize β * ξ = r at *
  generalize α * η = s at *
  have hr := abs_nonneg r
  have hs := abs_nonneg s
  have e1 : |v - (r - s)| ≤ |v - (p - q)| + (|p - r| + |q - s|) := by
    rw [show v - (r - s) = (v - (p - q)) + ((p - r) - (q - s)) by ring]
    exact (abs_add_le _ _).trans (add_le_add_right (abs_sub _ _) _)
  have e2 : |p - q| ≤ |r| + |s| + (|p - r| + |q - s|) := by
    rw [show p - q = (r - s) + ((p - r) - (q - s)) by ring]
    exact (abs_add_le _ _).trans (add_le_add (abs_sub _ _) (abs_sub _ _))
  have e3 : u * |p - q| ≤ u * (|r| + |s| + (u * (|r| + ν) + u * (|s| + ν))) :=
    mul_le_mul_of_nonneg_left (by linarith) hu
  have huu : 0 ≤ u * ν := mul_nonneg hu hν
  have huuu : 0 ≤ u * (u * ν) := mul_nonneg hu huu
  nlinarith

/-- One more term added to a sum. -/
theorem step_err (β ξ α η s R S : ℚ) (k : Nat) (hR : |R| ≤ S) (hs : |s - R| ≤ ((1 + u) ^ (k + 2) - 1) * S) :
    |rnd (s + rnd (rnd (β * ξ) - rnd (α * η))) - (R + (β * ξ - α * η))| ≤
      ((1 + u) ^ (k + 1 + 2) - 1) * (S + (|β * ξ| + |α * η| + 4 * ν)) := by
  have i2 := term_err hu hν herr β ξ α η
  have i3 := herr (s + rnd (rnd (β * ξ) - rnd (α * η)))
  have hterm := abs_sub (β * ξ) (α * η)
  generalize rnd (s + rnd (rnd (β * ξ) - rnd (α * η))) = v at *
  generalize rnd (rnd (β * ξ) - rnd (α * η)) = t at *
  rw [show k + 1 + 2 = (k + 2) + 1 by omega, pow_succ (1 + u) (k + 2)]
  have hG2 : (1 + u) ^ 2 ≤ (1 + u) ^ (k + 2) := pow_le_pow_right₀ (by linarith) (by omega)
  have hG1 : 1 ≤ (1 + u) ^ 2 := one_le_pow₀ (by linarith)
  generalize (1 + u) ^ 2 = g at *
  generalize (1 + u) ^ (k + 2) = G at *
  generalize |β * ξ| + |α * η| = m at *
  generalize β * ξ - α * η = T at *
  have hm : 0 ≤ m := by linarith [abs_nonneg T]
  have i2' : |t - T| ≤ (G - 1) * (m + 3 * ν) :=
    i2.trans (mul_le_mul_of_nonneg_right (by linarith) (by linarith))
  have e1 : |v - (R + T)| ≤ |v - (s + t)| + (|s - R| + |t - T|) := by
    rw [show v - (R + T) = (v - (s + t)) + ((s - R) + (t - T)) by ring]
    exact (abs_add_le _ _).trans (add_le_add_right (abs_add_le _ _) _)
  have e2 : |s + t| ≤ |R| + |T| + (|s - R| + |t - T|) := by
    rw [show s + t = (R + T) + ((s - R) + (t - T)) by ring]
    exact (abs_add_le _ _).trans (add_le_add (abs_add_le _ _) (abs_add_le _ _))
  have e3 : u * |s + t| ≤ u * (G * (S + m + 3 * ν)) := mul_le_mul_of_nonneg_left (by nlinarith) hu
  have e4 : u * ν ≤ (G * (1 + u) - 1) * ν := mul_le_mul_of_nonneg_right (by nlinarith) hν
  nlinarith

omit hu herr in
theorem sum_abs_le (β ξ α η : Nat → ℚ) (r M : ℚ) (hM : |r| ≤ M) (k : Nat) :
    |r + ∑ j ∈ Finset.range k, (β j * ξ j - α j * η j)| ≤
        M + ∑ j ∈ Finset.range k, (|β j * ξ j| + |α j * η j| + 4 * ν) := by
  refine (abs_add_le _ _).trans (add_le_add hM ((Finset.abs_sum_le_sum_abs _ _).trans (Finset.sum_le_sum fun j _ => ?_)))
  have := abs_sub (β j * ξ j) (α j * η j)
  linarith

/-- The terms added to a start. -/
theorem fold_err (β ξ α η : Nat → ℚ) (s0 : F32) (r M : ℚ) (hM : |r| ≤ M)
    (hs0 : ∀ v, s0 = num v → |v - r| ≤ ((1 + u) ^ 2 - 1) * M) : ∀ (k : Nat) (v : ℚ),
    (List.range k).foldl (fun s j => s + (num (β j) * num (ξ j) - num (α j) * num (η j))) s0 = num v →
    |v - (r + ∑ j ∈ Finset.range k, (β j * ξ j - α j * η j))| ≤
      ((1 + u) ^ (k + 2) - 1) * (M + ∑ j ∈ Finset.range k, (|β j * ξ j| + |α j * η j| + 4 * ν)) := by
  intro k
  induction k with
  | zero => intro v h; simpa using hs0 v h
  | succ k ih =>
    intro v h
    rw [List.range_succ, List.foldl_append] at h
    obtain ⟨s, t, h1, h2, rfl⟩ := add_inv h
    obtain ⟨p, q, h3, h4, rfl⟩ := sub_inv h2
    rw [num_mul] at h3 h4
    have h3 := of_inv h3
    have h4 := of_inv h4
    subst h3 h4
    rw [Finset.sum_range_succ, Finset.sum_range_succ, ← add_assoc r, ← add_assoc M]
    exact step_err hu hν herr _ _ _ _ s _ _ k (sum_abs_le hν β ξ α η r M hM k) (ih s h1)

/-- Without overflow the sum is a number. -/
theorem fold_num (β ξ α η : Nat → ℚ) (r0 r M : ℚ) (hM : |r| ≤ M) (hs0 : |r0 - r| ≤ ((1 + u) ^ 2 - 1) * M) (k : Nat)
    (hbig : (1 + u) ^ (k + 2) * (M + ∑ j ∈ Finset.range k, (|β j * ξ j| + |α j * η j| + 4 * ν)) < 2 ^ 128) : ∀ l, l ≤ k →
    ∃ v, (List.range l).foldl (fun s j => s + (num (β j) * num (ξ j) - num (α j) * num (η j))) (num r0) = num v := by
  have hM0 : 0 ≤ M := (abs_nonneg r).trans hM
  have hterm : ∀ j, 0 ≤ |β j * ξ j| + |α j * η j| + 4 * ν := fun j => by
    have := abs_nonneg (β j * ξ j); have := abs_nonneg (α j * η j); linarith
  have hpart : ∀ l, l ≤ k → (1 + u) ^ (l + 2) * (M + ∑ j ∈ Finset.range l, (|β j * ξ j| + |α j * η j| + 4 * ν)) < 2 ^ 128 := by
    intro l hl
    refine lt_of_le_of_lt ?_ hbig
    refine mul_le_mul (pow_le_pow_right₀ (by linarith) (by omega)) (add_le_add_right ?_ _) ?_ (by positivity)
    · exact Finset.sum_le_sum_of_subset_of_nonneg (Finset.range_subset_range.mpr hl) fun j _ _ => hterm j
    · exact add_nonneg hM0 (Finset.sum_nonneg fun j _ => hterm j)
  intro l
  induction l with
  | zero => intro _; exact ⟨r0, rfl⟩
  | succ l ih =>
    intro hl
    obtain ⟨s, hs⟩ := ih (by omega)
    have i1 := fold_err hu hν herr β ξ α η (num r0) r M hM
      (fun v hv => by injection hv with hv; rw [← hv]; exact hs0) l s hs
    have hR := sum_abs_le hν β ξ α η r M hM l
    have i2 := term_err hu hν herr (β l) (ξ l) (α l) (η l)
    have i3 := step_err hu hν herr (β l) (ξ l) (α l) (η l) s _ _ l hR i1
    have hlt := hpart (l + 1) hl
    have h1 := herr (β l * ξ l)
    have h2 := herr (α l * η l)
    rw [List.range_succ, List.foldl_append, hs]
    show ∃ v, num s + (num (β l) * num (ξ l) - num (α l) * num (η l)) = num v
    rw [Finset.sum_range_succ, ← add_assoc M] at hlt
    have hG2 : (1 + u) ^ 2 ≤ (1 + u) ^ (l + 1 + 2) := pow_le_pow_right₀ (by linarith) (by omega)
    have hG1 : 1 + u ≤ (1 + u) ^ 2 := by nlinarith
    have hS0 : 0 ≤ M + ∑ j ∈ Finset.range l, (|β j * ξ j| + |α j * η j| + 4 * ν) := (abs_nonneg _).trans hR
    have a1 := abs_nonneg (β l * ξ l)
    have a2 := abs_nonneg (α l * η l)
    have a3 := abs_sub (β l * ξ l) (α l * η l)
    generalize M + ∑ j ∈ Finset.range l, (|β j * ξ j| + |α j * η j| + 4 * ν) = S at *
    generalize r + ∑ j ∈ Finset.range l, (β j * ξ j - α j * η j) = R at *
    generalize (1 + u) ^ (l + 1 + 2) = G at *
    generalize (1 + u) ^ 2 = g at *
    have tri : ∀ p q : ℚ, |p| ≤ |p - q| + |q| := fun p q => by
      have := abs_add_le (p - q) q; rwa [sub_add_cancel] at this
    have n1 : |rnd (β l * ξ l)| < 2 ^ 128 := by
      have := tri (rnd (β l * ξ l)) (β l * ξ l)
      nlinarith
    have n2 : |rnd (α l * η l)| < 2 ^ 128 := by
      have := tri (rnd (α l * η l)) (α l * η l)
      nlinarith
    have n3 : |rnd (rnd (β l * ξ l) - rnd (α l * η l))| < 2 ^ 128 := by
      have := tri (rnd (rnd (β l * ξ l) - rnd (α l * η l))) (β l * ξ l - α l * η l)
      nlinarith
    have n4 : |rnd (s + rnd (rnd (β l * ξ l) - rnd (α l * η l)))| < 2 ^ 128 := by
      have := tri (rnd (s + rnd (rnd (β l * ξ l) - rnd (α l * η l)))) (R + (β l * ξ l - α l * η l))
      have := abs_add_le R (β l * ξ l - α l * η l)
      nlinarith
    rw [num_mul, num_mul, of_fin n1, of_fin n2, num_sub, of_fin n3, num_add, of_fin n4]
    exact ⟨_, rfl⟩

/-- The first value of a sample. -/
theorem head_err (β ξ ζ : ℚ) (c : Prop) [Decidable c] (v : ℚ)
    (h : (if c then num β * num ξ + num ζ else num β * num ξ) = num v) :
    |v - (β * ξ + if c then ζ else 0)| ≤ ((1 + u) ^ 2 - 1) * (|β * ξ| + |if c then ζ else 0| + 2 * ν) := by
  have hb := abs_nonneg (β * ξ)
  have e0 := herr (β * ξ)
  split_ifs at h ⊢ with hc
  · obtain ⟨p, q, h1, h2, rfl⟩ := add_inv h
    rw [num_mul] at h1
    have h1 := of_inv h1
    subst h1
    injection h2 with h2
    subst h2
    have e1 := herr (rnd (β * ξ) + ζ)
    have hz := abs_nonneg ζ
    generalize rnd (rnd (β * ξ) + ζ) = v at *
    generalize rnd (β * ξ) = p at *
    have a1 : |v - (β * ξ + ζ)| ≤ |v - (p + ζ)| + |p - β * ξ| := by
      rw [show v - (β * ξ + ζ) = (v - (p + ζ)) + (p - β * ξ) by ring]; exact abs_add_le _ _
    have a2 : |p + ζ| ≤ |β * ξ| + |ζ| + |p - β * ξ| := by
      rw [show p + ζ = (β * ξ + ζ) + (p - β * ξ) by ring]
      exact (abs_add_le _ _).trans (add_le_add_left (abs_add_le _ _) _)
    have a3 : u * |p + ζ| ≤ u * (|β * ξ| + |ζ| + u * (|β * ξ| + ν)) := mul_le_mul_of_nonneg_left (by linarith) hu
    have : 0 ≤ u * ν := mul_nonneg hu hν
    have : 0 ≤ u * (u * ν) := mul_nonneg hu this
    have : 0 ≤ u * (u * |ζ|) := mul_nonneg hu (mul_nonneg hu hz)
    have : 0 ≤ u * |ζ| := mul_nonneg hu hz
    nlinarith
  · rw [num_mul] at h
    have h := of_inv h
    subst h
    rw [add_zero, abs_zero, add_zero]
    have : 0 ≤ u * ν := mul_nonneg hu hν
    have : 0 ≤ u * (u * ν) := mul_nonneg hu this
    have : 0 ≤ u * |β * ξ| := mul_nonneg hu hb
    have : 0 ≤ u * (u * |β * ξ|) := mul_nonneg hu this
    nlinarith

theorem head_num (β ξ ζ : ℚ) (c : Prop) [Decidable c]
    (hbig : (1 + u) ^ 2 * (|β * ξ| + |if c then ζ else 0| + 2 * ν) < 2 ^ 128) :
    ∃ v, (if c then num β * num ξ + num ζ else num β * num ξ) = num v := by
  have hb := abs_nonneg (β * ξ)
  have e0 := herr (β * ξ)
  have tri : ∀ p q : ℚ, |p| ≤ |p - q| + |q| := fun p q => by
    have := abs_add_le (p - q) q; rwa [sub_add_cancel] at this
  have hz := abs_nonneg (if c then ζ else 0)
  have hG1 : 1 + u ≤ (1 + u) ^ 2 := by nlinarith
  have n1 : |rnd (β * ξ)| < 2 ^ 128 := by
    have := tri (rnd (β * ξ)) (β * ξ)
    generalize (1 + u) ^ 2 = g at *
    nlinarith
  rw [num_mul, of_fin n1]
  split_ifs at hbig hz ⊢ with hc
  · have e1 := herr (rnd (β * ξ) + ζ)
    have n2 : |rnd (rnd (β * ξ) + ζ)| < 2 ^ 128 := by
      have t1 := tri (rnd (rnd (β * ξ) + ζ)) (rnd (β * ξ) + ζ)
      have t2 := abs_add_le (rnd (β * ξ)) ζ
      have t3 := tri (rnd (β * ξ)) (β * ξ)
      have t4 : u * |rnd (β * ξ) + ζ| ≤ u * (|β * ξ| + u * (|β * ξ| + ν) + |ζ|) := mul_le_mul_of_nonneg_left (by linarith) hu
      have : 0 ≤ u * ν := mul_nonneg hu hν
      have : 0 ≤ u * (u * ν) := mul_nonneg hu this
      have : 0 ≤ u * (u * |ζ|) := mul_nonneg hu (mul_nonneg hu hz)
      have : 0 ≤ u * |ζ| := mul_nonneg hu hz
      nlinarith
    rw [num_add, of_fin n2]
    exact ⟨_, rfl⟩
  · exact ⟨_, rfl⟩

end

theorem sig_num (l : List ℚ) (i : Nat) : sig (l.map num) i = num (sig l i) := by
  unfold sig
  rw [List.getD_eq_getElem?_getD, List.getD_eq_getElem?_getD, List.getElem?_map]
  cases l[i]? <;> rfl

/-- What the difference equation asks for at sample `i`. -/
def target (N : Nat) (b a x z y : Nat → ℚ) (i : Nat) : ℚ :=
  b 0 * x i + (if i < N then z i else 0) +
    ∑ j ∈ Finset.range (min i N), (b (j + 1) * x (i - (j + 1)) - a (j + 1) * y (i - (j + 1)))

/-- The sizes of the terms of the difference equation at sample `i`, with `2^-126` for every operation. -/
def termSize (N : Nat) (b a x z y : Nat → ℚ) (i : Nat) : ℚ :=
  |b 0 * x i| + |if i < N then z i else 0| + 2 * 2 ^ (-126 : ℤ) +
    ∑ j ∈ Finset.range (min i N), (|b (j + 1) * x (i - (j + 1))| + |a (j + 1) * y (i - (j + 1))| + 4 * 2 ^ (-126 : ℤ))

theorem sample_err (N : Nat) (b a x z y : Nat → ℚ) (i : Nat) (v : ℚ)
    (h : sample N (fun j => num (b j)) (fun j => num (a j)) (fun j => num (x j)) (fun j => num (z j))
      (fun j => num (y j)) i = num v) :
    |v - target N b a x z y i| ≤ ((1 + 1 / 2 ^ 24) ^ (min i N + 2) - 1) * termSize N b a x z y i := by
  have hν : (0 : ℚ) ≤ 2 ^ (-126 : ℤ) := by positivity
  refine fold_err (by norm_num) hν rnd_err_all (fun j => b (j + 1)) (fun j => x (i - (j + 1))) (fun j => a (j + 1))
    (fun j => y (i - (j + 1))) _ (b 0 * x i + if i < N then z i else 0) _ ?_ (fun v hv => ?_) (min i N) v h
  · have := abs_add_le (b 0 * x i) (if i < N then z i else 0)
    linarith
  · exact head_err (by norm_num) hν rnd_err_all _ _ _ _ v hv

theorem sample_num (N : Nat) (b a x z y : Nat → ℚ) (i : Nat)
    (h : (1 + 1 / 2 ^ 24) ^ (min i N + 2) * termSize N b a x z y i < 2 ^ 128) :
    ∃ v, sample N (fun j => num (b j)) (fun j => num (a j)) (fun j => num (x j)) (fun j => num (z j))
      (fun j => num (y j)) i = num v := by
  have hν : (0 : ℚ) ≤ 2 ^ (-126 : ℤ) := by positivity
  have hhead : (1 + 1 / 2 ^ 24 : ℚ) ^ 2 * (|b 0 * x i| + |if i < N then z i else 0| + 2 * 2 ^ (-126 : ℤ)) < 2 ^ 128 := by
    refine lt_of_le_of_lt (mul_le_mul (pow_le_pow_right₀ (by norm_num) (by omega)) ?_ (by positivity) (by positivity)) h
    unfold termSize
    refine le_add_of_nonneg_right (Finset.sum_nonneg fun j _ => by positivity)
  obtain ⟨r0, hr0⟩ := head_num (by norm_num) hν rnd_err_all (b 0) (x i) (z i) (i < N) hhead
  unfold sample
  rw [hr0]
  refine fold_num (by norm_num) hν rnd_err_all (fun j => b (j + 1)) (fun j => x (i - (j + 1))) (fun j => a (j + 1))
    (fun j => y (i - (j + 1))) r0 (b 0 * x i + if i < N then z i else 0) _ ?_ ?_ (min i N) h _ le_rfl
  · have := abs_add_le (b 0 * x i) (if i < N then z i else 0)
    linarith
  · exact head_err (by norm_num) hν rnd_err_all _ _ _ _ _ hr0

theorem sample_congr {K : Type} [Add K] [Sub K] [Mul K] (N : Nat) (b a x z w w' : Nat → K) (i : Nat)
    (h : ∀ j, j < i → w j = w' j) : sample N b a x z w i = sample N b a x z w' i := by
  unfold sample
  apply foldl_congr_range
  intro s j hj
  rw [h _ (by omega)]

/-! ### Propagation of errors -/

/-- The denominator as a power series. -/
noncomputable def denSer (N : Nat) (a : Nat → ℚ) : PowerSeries ℚ :=
  PowerSeries.mk fun j => if j = 0 then 1 else if j ≤ N then a j else 0

theorem denSer_mul (N : Nat) (a f : Nat → ℚ) (n : Nat) :
    PowerSeries.coeff n (denSer N a * PowerSeries.mk f) =
      f n + ∑ j ∈ Finset.range (min n N), a (j + 1) * f (n - (j + 1)) := by
  rw [PowerSeries.coeff_mul, Finset.Nat.sum_antidiagonal_eq_sum_range_succ
    (f := fun i k => PowerSeries.coeff i (denSer N a) * PowerSeries.coeff k (PowerSeries.mk f)), Finset.sum_range_succ']
  simp only [denSer, PowerSeries.coeff_mk, if_true, one_mul, Nat.sub_zero, Nat.succ_ne_zero, if_false]
  rw [add_comm]
  congr 1
  rw [← Finset.sum_subset (Finset.range_subset_range.mpr (Nat.min_le_left n N))]
  · refine Finset.sum_congr rfl fun j hj => ?_
    rw [Finset.mem_range] at hj
    rw [if_pos (by omega)]
  · intro j hj hj'
    rw [Finset.mem_range] at hj hj'
    rw [if_neg (by omega), zero_mul]

/-- If the response `h` of the denominator to an impulse is absolutely summable then errors of at most `Δ` in every
equation make errors of at most `H Δ` in the solution. -/
theorem conv_bound (N : Nat) (a h : Nat → ℚ) (h0 : h 0 = 1)
    (hrec : ∀ n, h (n + 1) = -∑ j ∈ Finset.range (min (n + 1) N), a (j + 1) * h (n - j)) (H : ℚ)
    (hH : ∀ n, ∑ k ∈ Finset.range n, |h k| ≤ H) (e : Nat → ℚ) (Δ : ℚ) (n : Nat)
    (hδ : ∀ m, m ≤ n → |e m + ∑ j ∈ Finset.range (min m N), a (j + 1) * e (m - (j + 1))| ≤ Δ) : |e n| ≤ H * Δ := by
  have hΔ : 0 ≤ Δ := (abs_nonneg _).trans (hδ 0 (by omega))
  have hone : denSer N a * PowerSeries.mk h = 1 := by
    ext m
    rw [denSer_mul, PowerSeries.coeff_one]
    cases m with
    | zero => simp [h0]
    | succ m =>
      rw [hrec, if_neg (by omega)]
      simp only [Nat.add_sub_add_right, neg_add_cancel]
  have hE : PowerSeries.mk e = PowerSeries.mk h * (denSer N a * PowerSeries.mk e) := by
    rw [← mul_assoc, mul_comm (PowerSeries.mk h), hone, one_mul]
  have := congrArg (PowerSeries.coeff n) hE
  rw [PowerSeries.coeff_mk, PowerSeries.coeff_mul, Finset.Nat.sum_antidiagonal_eq_sum_range_succ
    (f := fun i k => PowerSeries.coeff i (PowerSeries.mk h) * PowerSeries.coeff k (denSer N a * PowerSeries.mk e))] at this
  rw [this]
  refine (Finset.abs_sum_le_sum_abs _ _).trans ?_
  refine le_trans (Finset.sum_le_sum fun k hk => ?_) (b := ∑ k ∈ Finset.range (n + 1), |h k| * Δ) ?_
  · rw [abs_mul, PowerSeries.coeff_mk, denSer_mul]
    exact mul_le_mul_of_nonneg_left (hδ _ (by omega)) (abs_nonneg _)
  · rw [← Finset.sum_mul]
    exact mul_le_mul_of_nonneg_right (hH _) hΔ

theorem abs_sum_sig (l : List ℚ) : (l.map abs).sum = ∑ j ∈ Finset.range l.length, |sig l j| := by
  induction l with
  | nil => rfl
  | cons v l ih =>
    rw [List.map_cons, List.sum_cons, List.length_cons, Finset.sum_range_succ', ih, add_comm]
    rfl

theorem sig_mem {l : List ℚ} {i : Nat} (h : i < l.length) : sig l i ∈ l := List.mem_of_getElem? (sig_get h)

theorem sig_abs_le {l : List ℚ} {B : ℚ} (hl : l ≠ []) (h : ∀ v ∈ l, |v| ≤ B) (i : Nat) : |sig l i| ≤ B := by
  by_cases hi : i < l.length
  · exact h _ (sig_mem hi)
  · have : sig l i = 0 := by
      unfold sig
      rw [List.getD_eq_getElem?_getD, List.getElem?_eq_none (by omega)]
      rfl
    rw [this, abs_zero]
    cases l with
    | nil => exact absurd rfl hl
    | cons v l => exact (abs_nonneg v).trans (h v (by simp))

theorem termSize_le (N : Nat) (b a : List ℚ) (x z y : Nat → ℚ) (i : Nat) (hb : b.length = N + 1) (ha : a.length = N + 1)
    (X Y Z : ℚ) (hX : ∀ j, |x j| ≤ X) (hZ : ∀ j, |z j| ≤ Z) (hY : ∀ j, j < i → |y j| ≤ Y) (hY0 : 0 ≤ Y) :
    termSize N (sig b) (sig a) x z y i ≤
      (b.map abs).sum * X + Z + (a.tail.map abs).sum * Y + (4 * N + 2) * 2 ^ (-126 : ℤ) := by
  have hX0 : 0 ≤ X := (abs_nonneg _).trans (hX 0)
  have hZ0 : 0 ≤ Z := (abs_nonneg _).trans (hZ 0)
  obtain ⟨a0, a, rfl⟩ : ∃ a0 a', a = a0 :: a' := by
    cases a with
    | nil => simp at ha
    | cons a0 a' => exact ⟨a0, a', rfl⟩
  rw [List.tail_cons]
  have ha' : a.length = N := by simpa using ha
  rw [abs_sum_sig, abs_sum_sig, hb, ha', Finset.sum_range_succ']
  have h1 : |sig b 0 * x i| ≤ |sig b 0| * X := by
    rw [abs_mul]; exact mul_le_mul_of_nonneg_left (hX i) (abs_nonneg _)
  have h2 : |if i < N then z i else 0| ≤ Z := by
    split_ifs
    · exact hZ i
    · rw [abs_zero]; exact hZ0
  have h3 : ∑ j ∈ Finset.range (min i N), (|sig b (j + 1) * x (i - (j + 1))| + |sig (a0 :: a) (j + 1) * y (i - (j + 1))| +
      4 * (2 : ℚ) ^ (-126 : ℤ)) ≤ ∑ j ∈ Finset.range N, (|sig b (j + 1)| * X + |sig a j| * Y + 4 * (2 : ℚ) ^ (-126 : ℤ)) := by
    refine le_trans (Finset.sum_le_sum fun j hj => ?_)
      (Finset.sum_le_sum_of_subset_of_nonneg (Finset.range_subset_range.mpr (Nat.min_le_right i N)) fun j _ _ => by positivity)
    rw [Finset.mem_range] at hj
    rw [abs_mul, abs_mul]
    exact add_le_add_left (add_le_add (mul_le_mul_of_nonneg_left (hX _) (abs_nonneg _))
      (mul_le_mul_of_nonneg_left (hY _ (by omega)) (abs_nonneg _))) _
  have h4 : ∑ j ∈ Finset.range N, (|sig b (j + 1)| * X + |sig a j| * Y + 4 * (2 : ℚ) ^ (-126 : ℤ)) =
      (∑ j ∈ Finset.range N, |sig b (j + 1)|) * X + (∑ j ∈ Finset.range N, |sig a j|) * Y + N * (4 * (2 : ℚ) ^ (-126 : ℤ)) := by
    rw [Finset.sum_add_distrib, Finset.sum_add_distrib, ← Finset.sum_mul, ← Finset.sum_mul, Finset.sum_const,
      Finset.card_range, nsmul_eq_mul]
  rw [h4] at h3
  unfold termSize
  linarith

/-! ### C99 -/

/-- C99, the difference equation (partial). For every order, all coefficients, every signal of at least as many samples
as the order and all initial conditions: if the result in single precision is made of numbers then every sample is what the
difference equation asks for, given the samples before it, up to about `N + 2` roundings of the sum of the sizes of its terms.

The full claim is that the result is that of the filter designed: `C99_unstable_refuted`, `C99_nan_refuted`. -/
theorem C99_difference_partial (N ns : Nat) (b a x z y : List ℚ) (o : List F32) (hN : 1 ≤ N) (hns : N ≤ ns)
    (hb : b.length = N + 1) (ha : a.length = N + 1) (hx : x.length = ns) (ho : o.length = ns) (hz : z.length = N)
    (h : iir N ns (b.map num) (a.map num) (x.map num) o (z.map num) = .ok (y.map num)) (i : Nat) (hi : i < ns) :
    |sig y i - target N (sig b) (sig a) (sig x) (sig z) (sig y) i| ≤
      ((1 + 1 / 2 ^ 24) ^ (min i N + 2) - 1) * termSize N (sig b) (sig a) (sig x) (sig z) (sig y) i := by
  obtain ⟨w, e, _, hw⟩ := iir_run N ns (b.map num) (a.map num) (x.map num) o (z.map num) hN hns (by simpa using hb)
    (by simpa using ha) (by simpa using hx) ho (by simpa using hz)
  rw [h] at e
  injection e with e
  subst e
  have := hw i hi
  simp only [funext (sig_num b), funext (sig_num a), funext (sig_num x), funext (sig_num z), funext (sig_num y)] at this
  exact sample_err N _ _ _ _ _ i _ this.symm

/-- C99, the result (partial). For every order, all coefficients, every signal of at least as many samples as the order and
all initial conditions: let `h` be the response of the denominator to an impulse, absolutely summable to at most `H`, and let
`out` be the exact result, of at most `Y`. Then the result in single precision is made of numbers, each within `D` of the
exact result, if `D` is at least the roundings of one sample times `H` and nothing overflows. -/
theorem C99_output_partial (N ns : Nat) (b a x z out o' : List ℚ) (o : List F32) (hN : 1 ≤ N) (hns : N ≤ ns)
    (hb : b.length = N + 1) (ha : a.length = N + 1) (hx : x.length = ns) (ho : o.length = ns) (ho' : o'.length = ns)
    (hz : z.length = N) (hout : iir N ns b a x o' z = .ok out)
    (h : Nat → ℚ) (h0 : h 0 = 1)
    (hrec : ∀ n, h (n + 1) = -∑ j ∈ Finset.range (min (n + 1) N), sig a (j + 1) * h (n - j)) (H : ℚ)
    (hH : ∀ n, ∑ k ∈ Finset.range n, |h k| ≤ H) (X Y Z D V : ℚ) (hX : ∀ v ∈ x, |v| ≤ X) (hY : ∀ v ∈ out, |v| ≤ Y)
    (hZ : ∀ v ∈ z, |v| ≤ Z) (hD0 : 0 ≤ D)
    (hV : V = (b.map abs).sum * X + Z + (a.tail.map abs).sum * (Y + D) + (4 * N + 2) * 2 ^ (-126 : ℤ))
    (hD : H * (((1 + 1 / 2 ^ 24) ^ (N + 2) - 1) * V) ≤ D) (hbig : (1 + 1 / 2 ^ 24) ^ (N + 2) * V < 2 ^ 128) :
    ∃ y : List ℚ, iir N ns (b.map num) (a.map num) (x.map num) o (z.map num) = .ok (y.map num) ∧ y.length = ns ∧
      ∀ i, i < ns → |sig y i - sig out i| ≤ D := by
  obtain ⟨w, e, lw, hw⟩ := iir_run N ns (b.map num) (a.map num) (x.map num) o (z.map num) hN hns (by simpa using hb)
    (by simpa using ha) (by simpa using hx) ho (by simpa using hz)
  simp only [funext (sig_num b), funext (sig_num a), funext (sig_num x), funext (sig_num z)] at hw
  obtain ⟨out', e', lout, hdiff⟩ := C45_difference_partial N ns b a x o' z hN hns hb ha hx ho' hz
  rw [hout] at e'
  injection e' with e'
  subst e'
  have hX' : ∀ j, |sig x j| ≤ X := sig_abs_le (by rintro rfl; simp at hx; omega) hX
  have hZ' : ∀ j, |sig z j| ≤ Z := sig_abs_le (by rintro rfl; simp at hz; omega) hZ
  have hY' : ∀ j, |sig out j| ≤ Y := sig_abs_le (by rintro rfl; simp at lout; omega) hY
  have hY0 : 0 ≤ Y := (abs_nonneg _).trans (hY' 0)
  -- the values
  let f : Nat → ℚ := fun i => match sig w i with
    | .num v => v
    | _ => 0
  have hf : ∀ i v, sig w i = num v → f i = v := by
    intro i v hv
    show (match sig w i with | .num v => v | _ => 0) = v
    rw [hv]
  have hH0 : 0 ≤ H := (hH 0).trans' (by simp)
  have main : ∀ i, i < ns → (sig w i = num (f i) ∧
      |f i - target N (sig b) (sig a) (sig x) (sig z) f i| ≤ ((1 + 1 / 2 ^ 24) ^ (N + 2) - 1) * V) ∧ |f i - sig out i| ≤ D := by
    intro i
    induction i using Nat.strongRecOn with
    | _ i ih =>
      intro hi
      have hfj : ∀ j, j < i → |f j| ≤ Y + D := by
        intro j hj
        have h1 := (ih j hj (by omega)).2
        have h2 := abs_add_le (f j - sig out j) (sig out j)
        rw [sub_add_cancel] at h2
        linarith [hY' j]
      have hwt : termSize N (sig b) (sig a) (sig x) (sig z) f i ≤ V := by
        rw [hV]; exact termSize_le N b a _ _ _ i hb ha X (Y + D) Z hX' hZ' hfj (by linarith)
      have hw0 : 0 ≤ termSize N (sig b) (sig a) (sig x) (sig z) f i := by
        unfold termSize
        positivity
      have hpow : (1 + 1 / 2 ^ 24 : ℚ) ^ (min i N + 2) ≤ (1 + 1 / 2 ^ 24) ^ (N + 2) :=
        pow_le_pow_right₀ (by norm_num) (by omega)
      have hone : (1 : ℚ) ≤ (1 + 1 / 2 ^ 24 : ℚ) ^ (min i N + 2) := one_le_pow₀ (by norm_num)
      obtain ⟨v, hv⟩ := sample_num N (sig b) (sig a) (sig x) (sig z) f i (by
        refine lt_of_le_of_lt ?_ hbig
        exact mul_le_mul hpow hwt hw0 (by positivity))
      have hwi : sig w i = num v := by
        rw [hw i hi, ← hv]
        exact sample_congr N _ _ _ _ _ _ i fun j hj => (ih j hj (by omega)).1.1
      have hfi := hf i v hwi
      have herr := sample_err N _ _ _ _ _ i v hv
      have herr' : |f i - target N (sig b) (sig a) (sig x) (sig z) f i| ≤ ((1 + 1 / 2 ^ 24) ^ (N + 2) - 1) * V := by
        rw [hfi]
        exact herr.trans (mul_le_mul (by linarith) hwt hw0 (by linarith))
      refine ⟨⟨by rw [hfi]; exact hwi, herr'⟩, ?_⟩
      refine le_trans (conv_bound N (sig a) h h0 hrec H hH (fun m => f m - sig out m)
        (((1 + 1 / 2 ^ 24) ^ (N + 2) - 1) * V) i fun m hm => ?_) hD
      have hm' : |f m - target N (sig b) (sig a) (sig x) (sig z) f m| ≤ ((1 + 1 / 2 ^ 24) ^ (N + 2) - 1) * V := by
        rcases Nat.lt_or_ge m i with hlt | hge
        · exact (ih m hlt (by omega)).1.2
        · obtain rfl : m = i := by omega
          exact herr'
      convert hm' using 2
      have hd := hdiff m (by omega)
      unfold Diff at hd
      unfold target
      simp only [mul_sub, Finset.sum_sub_distrib] at hd ⊢
      rw [hd]
      ring
  refine ⟨(List.range ns).map f, ?_, by simp, ?_⟩
  · rw [e]
    congr 1
    apply List.ext_getElem?
    intro i
    by_cases hi : i < ns
    · rw [sig_get (by omega), (main i hi).1.1]
      simp [hi]
    · rw [List.getElem?_eq_none (by omega), List.getElem?_eq_none (by simp; omega)]
  · intro i hi
    have : sig ((List.range ns).map f) i = f i := sig_of (by simp [hi])
    rw [this]
    exact (main i hi).2

/-- The hypotheses of `C99_output_partial`, and with its result those of `C99_difference_partial`, are met: order 1, three
samples. -/
example : ∃ y : List ℚ, iir 1 3 ([1 / 4, 1 / 4].map num) ([1, -1 / 2].map num) ([2, 4, -4].map num) [num 0, num 0, num 0]
    ([1].map num) = .ok (y.map num) ∧ (∀ i, i < 3 → |sig y i - sig [3 / 2, 9 / 4, 9 / 8] i| ≤ 1 / 2 ^ 18) ∧
    ∀ i, i < 3 → |sig y i - target 1 (sig [1 / 4, 1 / 4]) (sig [1, -1 / 2]) (sig [2, 4, -4]) (sig [1]) (sig y) i| ≤
      ((1 + 1 / 2 ^ 24) ^ (min i 1 + 2) - 1) *
        termSize 1 (sig [1 / 4, 1 / 4]) (sig [1, -1 / 2]) (sig [2, 4, -4]) (sig [1]) (sig y) i := by
  obtain ⟨y, e, _, h⟩ := C99_output_partial 1 3 [1 / 4, 1 / 4] [1, -1 / 2] [2, 4, -4] [1] [3 / 2, 9 / 4, 9 / 8] [0, 0, 0]
    [num 0, num 0, num 0] (by norm_num) (by norm_num) rfl rfl rfl rfl rfl rfl (by decide +kernel)
    (fun n => (1 / 2) ^ n) (by norm_num)
    (fun n => by
      rw [show min (n + 1) 1 = 1 by omega, Finset.sum_range_one, show sig ([1, -1 / 2] : List ℚ) (0 + 1) = -1 / 2 from rfl, pow_succ,
        Nat.sub_zero]
      ring) 2
    (fun n => by
      have : ∑ k ∈ Finset.range n, |((1 / 2 : ℚ) ^ k)| = 2 - 2 * (1 / 2) ^ n := by
        induction n with
        | zero => norm_num
        | succ n ih =>
          rw [Finset.sum_range_succ, ih, abs_of_pos (by positivity), pow_succ]
          ring
      rw [this]
      have : (0 : ℚ) ≤ (1 / 2) ^ n := by positivity
      linarith) 4 (9 / 4) 1 (1 / 2 ^ 18) _
    (by intro v hv; simp only [List.mem_cons, List.not_mem_nil, or_false] at hv; rcases hv with rfl | rfl | rfl <;> norm_num [abs_le])
    (by intro v hv; simp only [List.mem_cons, List.not_mem_nil, or_false] at hv; rcases hv with rfl | rfl | rfl <;> norm_num [abs_le])
    (by intro v hv; simp only [List.mem_cons, List.not_mem_nil, or_false] at hv; subst hv; norm_num)
    (by norm_num) rfl (by norm_num [abs_of_pos, abs_of_neg]) (by norm_num [abs_of_pos, abs_of_neg])
  exact ⟨y, e, h, fun i hi => C99_difference_partial 1 3 _ _ _ _ y _ (by norm_num) (by norm_num) rfl rfl rfl rfl rfl e i hi⟩

/-! ### Starts that divide by zero -/

/-- An infinity or not-a-number. -/
def NotNum (v : F32) : Prop := ∀ q, v ≠ num q

theorem NotNum.add_left {s t : F32} (h : NotNum s) : NotNum (s + t) := fun q e => by
  obtain ⟨p, _, h1, _⟩ := add_inv e; exact h p h1
theorem NotNum.add_right {s t : F32} (h : NotNum t) : NotNum (s + t) := fun q e => by
  obtain ⟨_, p, _, h1, _⟩ := add_inv e; exact h p h1
theorem NotNum.sub_right {s t : F32} (h : NotNum t) : NotNum (s - t) := fun q e => by
  obtain ⟨_, p, _, h1, _⟩ := sub_inv e; exact h p h1

theorem mul_inv' {s t : F32} {v : ℚ} (h : s * t = num v) : (∃ p, s = num p) ∧ ∃ q, t = num q := by
  cases s with
  | num p =>
    cases t with
    | num q => exact ⟨⟨p, rfl⟩, q, rfl⟩
    | inf b =>
      have e : (if p = 0 then F32.nan else F32.inf (b != decide (p < 0))) = num v := h
      split at e <;> cases e
    | nan => cases h
  | inf b =>
    cases t with
    | num q =>
      have e : (if q = 0 then F32.nan else F32.inf (b != decide (q < 0))) = num v := h
      split at e <;> cases e
    | inf c => cases h
    | nan => cases h
  | nan => cases t <;> cases h

theorem NotNum.mul_left {s t : F32} (h : NotNum s) : NotNum (s * t) := fun q e => by
  obtain ⟨⟨p, h1⟩, _⟩ := mul_inv' e; exact h p h1
theorem NotNum.mul_right {s t : F32} (h : NotNum t) : NotNum (s * t) := fun q e => by
  obtain ⟨_, p, h1⟩ := mul_inv' e; exact h p h1

theorem div_zero_notNum (s : F32) : NotNum (s / num 0) := by
  intro q e
  cases s with
  | num p =>
    have e' : (if (0 : ℚ) = 0 then (if p = 0 then F32.nan else F32.inf (decide (p < 0))) else F32.of (p / 0)) = num q := e
    rw [if_pos rfl] at e'
    split at e' <;> cases e'
  | inf b => cases e
  | nan => cases e

theorem foldl_notNum (f : Nat → F32) : ∀ (l : List Nat) (s : F32), NotNum s → NotNum (l.foldl (fun s j => s + f j) s) := by
  intro l
  induction l with
  | nil => intro s h; exact h
  | cons j l ih => intro s h; exact ih _ h.add_left

/-- The first of the initial conditions: a quotient by the sum of the denominator, added up in order. -/
theorem startZ_first {K : Type} [Zero K] [One K] [Add K] [Sub K] [Mul K] [Div K] (m : Nat) (b a : List K) (hm : 1 ≤ m)
    (hb : b.length = m + 1) (ha : a.length = m + 1) :
    ∃ zi B, startZ m b a = .ok zi ∧ zi.length = m ∧ sig zi 0 = B / a.tail.foldl (· + ·) 1 := by
  unfold startZ
  obtain ⟨s, e1, hs⟩ := forRange_inv (sumStep b a) (fun k s => s.2 = (a.tail.take (k - 1)).foldl (· + ·) 1)
    m 1 (0, 1) (by simp) (by
    intro k s h1 h2 hs
    refine ⟨(s.1 + (sig b k - sig a k * sig b 0), s.2 + sig a k), by
      unfold sumStep
      rw [readAt_sig (by omega), Res.ok_bind, readAt_sig (by omega), Res.ok_bind, readAt_sig (by omega), Res.ok_bind], ?_⟩
    obtain ⟨k, rfl⟩ : ∃ i, k = i + 1 := ⟨k - 1, by omega⟩
    rw [Nat.add_sub_cancel] at hs ⊢
    have ht : a.tail[k]? = some (sig a (k + 1)) := by rw [List.getElem?_tail]; exact sig_get (by omega)
    rw [List.take_add_one, List.foldl_append, ← hs, ht]
    rfl)
  rw [e1, Res.ok_bind, writeAt_ok _ (by simp; omega), Res.ok_bind]
  rw [Nat.add_sub_cancel_left, List.take_of_length_le (by rw [List.length_tail]; omega)] at hs
  rw [hs]
  generalize hz0 : s.1 / a.tail.foldl (· + ·) 1 = z0
  obtain ⟨t, e2, h1, h2⟩ := forRange_inv (ziStep b a) (fun k t => t.2.2.length = m ∧ sig t.2.2 0 = z0) (m - 1) 1
    (1, 0, (List.replicate m (0 : K)).set 0 z0) ⟨by simp, sig_set_self _ (by simp; omega)⟩ (by
    intro k t hk1 hk2 ⟨h1, h2⟩
    refine ⟨(t.1 + sig a k, t.2.1 + (sig b k - sig a k * sig b 0), t.2.2.set k ((t.1 + sig a k) * sig t.2.2 0 -
      (t.2.1 + (sig b k - sig a k * sig b 0)))), ?_, by simpa using h1, ?_⟩
    · unfold ziStep
      rw [readAt_sig (by omega), Res.ok_bind, readAt_sig (by omega), Res.ok_bind, readAt_sig (by omega), Res.ok_bind,
        readAt_sig (by omega), Res.ok_bind, writeAt_ok _ (by omega), Res.ok_bind]
    · rw [sig_set_ne _ (by omega)]; exact h2)
  rw [e2, Res.ok_bind]
  exact ⟨t.2.2, s.1, rfl, h1, by rw [h2, ← hz0]⟩

/-- One sample that is not a number makes all that follow so. -/
theorem iir_notNum (N ns : Nat) (b a x y z : List F32) (hN : 1 ≤ N) (hns : N ≤ ns)
    (hb : b.length = N + 1) (ha : a.length = N + 1) (hx : x.length = ns) (hy : y.length = ns) (hz : z.length = N)
    (h : NotNum (sig z 0) ∨ NotNum (sig x 0)) :
    ∃ w, iir N ns b a x y z = .ok w ∧ w.length = ns ∧ ∀ i, i < ns → NotNum (sig w i) := by
  obtain ⟨w, e, lw, hw⟩ := iir_run N ns b a x y z hN hns hb ha hx hy hz
  refine ⟨w, e, lw, fun i => ?_⟩
  induction i using Nat.strongRecOn with
  | _ i ih =>
    intro hi
    rw [hw i hi]
    unfold sample
    rcases Nat.eq_zero_or_pos i with rfl | hp
    · rw [if_pos (by omega), Nat.zero_min]
      rcases h with h | h
      · exact h.add_right
      · exact h.mul_right.add_left
    · obtain ⟨k, hk⟩ : ∃ k, min i N = k + 1 := ⟨min i N - 1, by omega⟩
      rw [hk, List.range_succ_eq_map, List.foldl_cons]
      exact foldl_notNum (fun j => sig b (j + 1) * sig x (i - (j + 1)) - sig a (j + 1) * sig w (i - (j + 1))) _ _
        ((ih (i - (0 + 1)) (by omega) (by omega)).mul_right.sub_right.add_right)

/-- If the denominator, added up as the program does, gives zero then no sample of any trace is a number after the
filter. -/
theorem filter_notNum (p : Pad) (nw : Nat) (trc : List F32) (m : Nat) (b a : List F32) (hp : PadOk p nw m)
    (hm : 1 ≤ m) (hnw : 1 ≤ nw) (hl : trc.length = nw) (hb : b.length = m + 1) (ha : a.length = m + 1)
    (h64 : nw + 6 * (m + 1) < 2 ^ 64) (hsum : a.tail.foldl (· + ·) 1 = num 0) :
    ∃ out, filterTime p nw trc m b a = .ok out ∧ out.length = nw ∧ ∀ v ∈ out, NotNum v := by
  obtain ⟨X, eX, lX, _⟩ := padTrace_ok p nw trc m hp hnw hl h64
  obtain ⟨z, B, ez, lz, sz⟩ := startZ_first m b a hm hb ha
  rw [hsum] at sz
  obtain ⟨z1, ez1, lz1, sz1⟩ := scaleZ_spec m z (sig X 0) lz
  have hz1 : NotNum (sig z1 0) := by
    rw [sz1 0 (by omega), sz]; exact (div_zero_notNum B).mul_left
  obtain ⟨Y, eY, lY, sY⟩ := iir_notNum m (nw + 6 * (m + 1)) b a X (List.replicate (nw + 6 * (m + 1)) 0) z1 hm
    (by omega) hb ha lX (by simp) lz1 (.inl hz1)
  obtain ⟨X2, Y2, eT, lX2, lY2, sT⟩ := turn_spec (nw + 6 * (m + 1)) X Y lX lY
  obtain ⟨z2, ez2, lz2, sz2⟩ := scaleZ_spec m z (sig X2 0) lz
  obtain ⟨Z, eZ, lZ, sZ⟩ := iir_notNum m (nw + 6 * (m + 1)) b a X2 Y2 z2 hm (by omega) hb ha lX2 lY2 lz2
    (.inr (by rw [sT 0 (by omega)]; exact sY _ (by omega)))
  obtain ⟨out, eo, lo, so⟩ := forRange_inv (fun i trc => do
      let v ← readAt Z (nw + 3 * (m + 1) - i - 1)
      writeAt trc i v) (fun k s => s.length = nw ∧ ∀ i, i < k → NotNum (sig s i)) nw 0 trc
    ⟨hl, by intro i hi; omega⟩ (by
    intro k s _ hk ⟨h1, h2⟩
    refine ⟨s.set k (sig Z (nw + 3 * (m + 1) - k - 1)), by rw [readAt_sig (by omega), Res.ok_bind, writeAt_ok _ (by omega)],
      by simpa using h1, ?_⟩
    intro i hi
    by_cases hik : i = k
    · subst hik
      rw [sig_set_self _ (by omega)]
      exact sZ _ (by omega)
    · rw [sig_set_ne _ (by omega)]; exact h2 i (by omega))
  refine ⟨out, ?_, lo, ?_⟩
  · unfold filterTime
    simp only
    rw [eX, Res.ok_bind, ez, Res.ok_bind, readAt_sig (by omega), Res.ok_bind, ez1, Res.ok_bind, eY, Res.ok_bind, eT,
      Res.ok_bind, readAt_sig (by simp only; omega), Res.ok_bind]
    simp only
    rw [ez2, Res.ok_bind, eZ, Res.ok_bind, eo]
  · intro v hv
    obtain ⟨i, hi, rfl⟩ := List.mem_iff_getElem.mp hv
    have := so i (by omega)
    have e := sig_get hi
    rw [List.getElem?_eq_getElem hi, Option.some.injEq] at e
    rw [e]; exact this

end Verif.Signal
