import Verif.Util.FourDSingle
import Verif.Props.FourDCoords
import Verif.Props.FourD

/-!
# C97: 4D binning in single precision
-/

namespace Verif.FourDSingle
open Verif.FP32 Verif.Util Verif.FourDOut Verif.Files Verif.Scalar Verif.Flow Verif.Params Verif.Sort
open Verif.Extremes (be16 be32)

/-! ### Rounding -/

theorem tiny_err (x : ℚ) : |rnd x - x| ≤ |x| / 2 ^ 24 + 1 / 2 ^ 150 := by
  rcases le_or_gt ((2 : ℚ) ^ (-126 : ℤ)) |x| with h | h
  · refine (rnd_err h).trans ?_
    have : (0 : ℚ) ≤ 1 / 2 ^ 150 := by norm_num
    linarith
  · have h1 : |x| < (2 : ℚ) ^ ((-149 : ℤ) + 24) := lt_trans h (zpow_lt_zpow_right₀ (by norm_num) (by norm_num))
    refine (rnd_err_lt h1 (by norm_num)).trans ?_
    have e : (2 : ℚ) ^ (-149 : ℤ) / 2 = 1 / 2 ^ 150 := by
      rw [zpow_neg]; norm_num
    rw [e]
    have := abs_nonneg x
    have h2 : 0 ≤ |x| / 2 ^ 24 := by positivity
    linarith

theorem single_grid {a : ℚ} (h : IsSingle a) : ∃ m : ℤ, a = m * 2 ^ (-149 : ℤ) := by
  obtain ⟨n, e, -, h2, h3⟩ := h
  refine ⟨n * 2 ^ (e + 149).toNat, ?_⟩
  rw [h3]
  push_cast
  rw [mul_assoc]
  congr 1
  rw [← zpow_natCast, ← zpow_add₀ (by norm_num)]
  congr 1
  omega

theorem grid_err {x : ℚ} (h : ∃ m : ℤ, x = m * 2 ^ (-149 : ℤ)) : |rnd x - x| ≤ |x| / 2 ^ 24 := by
  rcases le_or_gt ((2 : ℚ) ^ (-126 : ℤ)) |x| with h' | h'
  · exact rnd_err h'
  · obtain ⟨m, hm⟩ := h
    have hs : IsSingle x := by
      refine ⟨m, -149, ?_, le_refl _, hm⟩
      have h0 := Verif.FP.two_zpow_pos (-149)
      rw [hm, abs_mul, abs_of_pos h0] at h'
      have e : (2 : ℚ) ^ (-126 : ℤ) = 2 ^ 23 * 2 ^ (-149 : ℤ) := by
        rw [← zpow_natCast, ← zpow_add₀ (by norm_num)]; norm_num
      rw [e] at h'
      have h3 := lt_of_mul_lt_mul_right h' h0.le
      have h4 : |m| < 2 ^ 23 := by exact_mod_cast h3
      omega
    rw [rnd_single hs, sub_self, abs_zero]
    positivity

theorem sub_err {a b : ℚ} (ha : IsSingle a) (hb : IsSingle b) : |rnd (a - b) - (a - b)| ≤ |a - b| / 2 ^ 24 := by
  obtain ⟨m, hm⟩ := single_grid ha
  obtain ⟨n, hn⟩ := single_grid hb
  refine grid_err ⟨m - n, ?_⟩
  rw [hm, hn]; push_cast; ring

theorem add_err {a b : ℚ} (ha : IsSingle a) (hb : IsSingle b) : |rnd (a + b) - (a + b)| ≤ |a + b| / 2 ^ 24 := by
  obtain ⟨m, hm⟩ := single_grid ha
  obtain ⟨n, hn⟩ := single_grid hb
  refine grid_err ⟨m + n, ?_⟩
  rw [hm, hn]; push_cast; ring

/-! ### Lengths -/

theorem hyp_add (a b c d : ℝ) : hyp (a + c) (b + d) ≤ hyp a b + hyp c d := by
  unfold hyp
  have h1 : 0 ≤ a * a + b * b := by nlinarith [mul_self_nonneg a, mul_self_nonneg b]
  have h2 : 0 ≤ c * c + d * d := by nlinarith [mul_self_nonneg c, mul_self_nonneg d]
  have h3 : a * c + b * d ≤ √(a * a + b * b) * √(c * c + d * d) := by
    rw [← Real.sqrt_mul h1]
    refine Real.le_sqrt_of_sq_le ?_
    nlinarith [sq_nonneg (a * d - b * c)]
  rw [Real.sqrt_le_left (add_nonneg (Real.sqrt_nonneg _) (Real.sqrt_nonneg _))]
  nlinarith [Real.mul_self_sqrt h1, Real.mul_self_sqrt h2]

theorem hyp_neg (a b : ℝ) : hyp (-a) (-b) = hyp a b := by
  unfold hyp; rw [neg_mul_neg, neg_mul_neg]

theorem hyp_diff (a b c d : ℝ) : |hyp a b - hyp c d| ≤ hyp (a - c) (b - d) := by
  have h1 := hyp_add (a - c) (b - d) c d
  have h2 := hyp_add (c - a) (d - b) a b
  rw [sub_add_cancel, sub_add_cancel] at h1 h2
  rw [show c - a = -(a - c) by ring, show d - b = -(b - d) by ring, hyp_neg] at h2
  rw [abs_le]
  constructor <;> linarith

theorem hyp_mono {a b c d : ℝ} (h1 : |a| ≤ c) (h2 : |b| ≤ d) : hyp a b ≤ hyp c d := by
  unfold hyp
  refine Real.sqrt_le_sqrt ?_
  have := abs_nonneg a
  have := abs_nonneg b
  have e1 := abs_mul_abs_self a
  have e2 := abs_mul_abs_self b
  nlinarith

theorem hyp_scale {k : ℝ} (hk : 0 ≤ k) (a b : ℝ) : hyp (a * k) (b * k) = hyp a b * k := by
  unfold hyp
  rw [show a * k * (a * k) + b * k * (b * k) = (a * a + b * b) * (k * k) by ring, Real.sqrt_mul
    (by nlinarith [mul_self_nonneg a, mul_self_nonneg b]), Real.sqrt_mul_self hk]

theorem hyp_abs (a b : ℝ) : hyp |a| |b| = hyp a b := by
  unfold hyp; rw [abs_mul_abs_self, abs_mul_abs_self]

/-! ### The criterion -/

/-- `sqrtf` rounds the exact root to nearest: IEEE-754. (The root of a float that is not zero is never subnormal.) -/
def GoodRoot (sqrtf : ℚ → ℚ) : Prop := ∀ q : ℚ, 0 ≤ q → |(sqrtf q : ℝ) - √(q : ℝ)| ≤ √(q : ℝ) / 2 ^ 24

theorem goodRoot_exists : ∃ f, GoodRoot f := by
  have key : ∀ q : ℚ, ∃ r : ℚ, 0 ≤ q → |(r : ℝ) - √(q : ℝ)| ≤ √(q : ℝ) / 2 ^ 24 := by
    intro q
    rcases lt_trichotomy q 0 with hq | hq | hq
    · exact ⟨0, fun h => absurd h (not_le.2 hq)⟩
    · exact ⟨0, fun _ => by rw [hq]; simp⟩
    · have hs : 0 < √(q : ℝ) := Real.sqrt_pos.2 (by exact_mod_cast hq)
      obtain ⟨r, h1, h2⟩ := exists_rat_btwn (show √(q : ℝ) < √(q : ℝ) + √(q : ℝ) / 2 ^ 24 by
        linarith [div_pos hs (by norm_num : (0:ℝ) < 2 ^ 24)])
      exact ⟨r, fun _ => by rw [abs_of_pos (by linarith)]; linarith⟩
  choose f hf using key
  exact ⟨f, hf⟩

theorem GoodRoot.zero {f : ℚ → ℚ} (h : GoodRoot f) : f 0 = 0 := by
  have := h 0 le_rfl
  simp at this
  exact this

theorem GoodRoot.nonneg {f : ℚ → ℚ} (h : GoodRoot f) {q : ℚ} (hq : 0 ≤ q) : 0 ≤ f q := by
  have h1 := abs_le.1 (h q hq)
  have h2 := Real.sqrt_nonneg (q : ℝ)
  have : (0 : ℝ) ≤ f q := by linarith
  exact_mod_cast this

/-- The sum of the squares. -/
theorem squares_err (x y : ℚ) : |rnd (rnd (x * x) + rnd (y * y)) - (x * x + y * y)| ≤
    (x * x + y * y) * (3 / 2 ^ 24) + 3 / 2 ^ 150 := by
  have h1 := tiny_err (x * x)
  have h2 := tiny_err (y * y)
  have h3 := add_err (isSingle_rnd (x * x)) (isSingle_rnd (y * y))
  have hx := mul_self_nonneg x
  have hy := mul_self_nonneg y
  have nx := rnd_nonneg hx
  have ny := rnd_nonneg hy
  rw [abs_of_nonneg hx] at h1
  rw [abs_of_nonneg hy] at h2
  rw [abs_of_nonneg (add_nonneg nx ny)] at h3
  rw [abs_le] at h1 h2 h3 ⊢
  generalize rnd (rnd (x * x) + rnd (y * y)) = s at *
  generalize rnd (x * x) = a at *
  generalize rnd (y * y) = b at *
  generalize x * x = p at *
  generalize y * y = q at *
  norm_num at *
  constructor <;> linarith

theorem root_err (x y : ℚ) : |√((rnd (rnd (x * x) + rnd (y * y)) : ℚ) : ℝ) - hyp x y| ≤ hyp x y * (2 / 2 ^ 24) + 1 / 2 ^ 74 := by
  have h := squares_err x y
  have hs0 : 0 ≤ rnd (rnd (x * x) + rnd (y * y)) :=
    rnd_nonneg (add_nonneg (rnd_nonneg (mul_self_nonneg x)) (rnd_nonneg (mul_self_nonneg y)))
  generalize rnd (rnd (x * x) + rnd (y * y)) = s at *
  have h' := (Rat.cast_le (K := ℝ)).2 h
  push_cast at h'
  have hs : (0 : ℝ) ≤ s := by exact_mod_cast hs0
  have hR := hyp_nonneg (x : ℝ) y
  have hRR : hyp (x : ℝ) y * hyp x y = (x : ℝ) * x + y * y := by
    unfold hyp
    exact Real.mul_self_sqrt (by nlinarith [mul_self_nonneg (x : ℝ), mul_self_nonneg (y : ℝ)])
  rw [← hRR] at h'
  generalize hyp (x : ℝ) y = R at *
  rw [abs_le] at h' ⊢
  have hq := Real.sqrt_nonneg (s : ℝ)
  have hqq := Real.mul_self_sqrt hs
  generalize hsq : √(s : ℝ) = q at *
  obtain ⟨l, u⟩ := h'
  constructor
  · by_contra hc
    have hc' : q + 1 / 2 ^ 74 < R * (1 - 2 / 2 ^ 24) := by linarith
    have h1 : (q + 1 / 2 ^ 74) * (q + 1 / 2 ^ 74) < R * (1 - 2 / 2 ^ 24) * (R * (1 - 2 / 2 ^ 24)) :=
      mul_self_lt_mul_self (by positivity) hc'
    have h2 : R * (1 - 2 / 2 ^ 24) * (R * (1 - 2 / 2 ^ 24)) ≤ R * R * (1 - 3 / 2 ^ 24) := by
      have : R * (1 - 2 / 2 ^ 24) * (R * (1 - 2 / 2 ^ 24)) = R * R * ((1 - 2 / 2 ^ 24) * (1 - 2 / 2 ^ 24)) := by ring
      rw [this]
      exact mul_le_mul_of_nonneg_left (by norm_num) (mul_self_nonneg R)
    have h3 : q * q + 1 / 2 ^ 148 ≤ (q + 1 / 2 ^ 74) * (q + 1 / 2 ^ 74) := by
      have : (q + 1 / 2 ^ 74) * (q + 1 / 2 ^ 74) = q * q + 1 / 2 ^ 148 + 2 * q * (1 / 2 ^ 74) := by norm_num; ring
      rw [this]
      have : 0 ≤ 2 * q * (1 / 2 ^ 74) := by positivity
      linarith
    have h4 : (3 : ℝ) / 2 ^ 150 < 1 / 2 ^ 148 := by norm_num
    linarith
  · by_contra hc
    have hc' : R * (1 + 2 / 2 ^ 24) + 1 / 2 ^ 74 < q := by linarith
    have h1 := mul_self_lt_mul_self (by positivity) hc'
    have h2 : R * R * (1 + 3 / 2 ^ 24) + 1 / 2 ^ 148 ≤
        (R * (1 + 2 / 2 ^ 24) + 1 / 2 ^ 74) * (R * (1 + 2 / 2 ^ 24) + 1 / 2 ^ 74) := by
      have e : (R * (1 + 2 / 2 ^ 24) + 1 / 2 ^ 74) * (R * (1 + 2 / 2 ^ 24) + 1 / 2 ^ 74) =
          R * R * ((1 + 2 / 2 ^ 24) * (1 + 2 / 2 ^ 24)) + 1 / 2 ^ 148 + R * (2 * (1 + 2 / 2 ^ 24) * (1 / 2 ^ 74)) := by
        norm_num; ring
      rw [e]
      have k1 : R * R * (1 + 3 / 2 ^ 24) ≤ R * R * ((1 + 2 / 2 ^ 24) * (1 + 2 / 2 ^ 24)) :=
        mul_le_mul_of_nonneg_left (by norm_num) (mul_self_nonneg R)
      have k2 : 0 ≤ R * (2 * (1 + 2 / 2 ^ 24) * (1 / 2 ^ 74)) := by positivity
      linarith
    have h4 : (3 : ℝ) / 2 ^ 150 < 1 / 2 ^ 148 := by norm_num
    linarith

/-- `hypot` of two differences of floats, against the length of the exact difference. -/
theorem hypS_err {f : ℚ → ℚ} (hf : GoodRoot f) {a b c d : ℚ} (ha : IsSingle a) (hb : IsSingle b) (hc : IsSingle c)
    (hd : IsSingle d) : |(hypS f (rnd (a - c)) (rnd (b - d)) : ℝ) - hyp ((a : ℝ) - c) (b - d)| ≤
      hyp ((a : ℝ) - c) (b - d) * (6 / 2 ^ 24) + 2 / 2 ^ 74 := by
  have h1 := sub_err ha hc
  have h2 := sub_err hb hd
  have h3 := root_err (rnd (a - c)) (rnd (b - d))
  have h4 := hf _ (rnd_nonneg (add_nonneg (rnd_nonneg (mul_self_nonneg (rnd (a - c)))) (rnd_nonneg (mul_self_nonneg (rnd (b - d))))))
  unfold hypS
  generalize rnd (rnd (rnd (a - c) * rnd (a - c)) + rnd (rnd (b - d) * rnd (b - d))) = s at *
  have h1' := (Rat.cast_le (K := ℝ)).2 h1
  have h2' := (Rat.cast_le (K := ℝ)).2 h2
  push_cast at h1' h2'
  have h5 := hyp_diff (rnd (a - c) : ℝ) (rnd (b - d)) ((a : ℝ) - c) (b - d)
  have h6 := hyp_mono h1' h2'
  have h7 : hyp (|(a : ℝ) - c| / 2 ^ 24) (|(b : ℝ) - d| / 2 ^ 24) = hyp ((a : ℝ) - c) (b - d) * (1 / 2 ^ 24) := by
    rw [div_eq_mul_one_div, div_eq_mul_one_div |(b : ℝ) - d|, hyp_scale (by norm_num), hyp_abs]
  have hH := hyp_nonneg ((a : ℝ) - c) (b - d)
  have hR := hyp_nonneg (rnd (a - c) : ℝ) (rnd (b - d))
  generalize hyp ((a : ℝ) - c) (b - d) = H at *
  generalize hyp (rnd (a - c) : ℝ) (rnd (b - d)) = R at *
  generalize √(s : ℝ) = q at *
  generalize (f s : ℝ) = r at *
  rw [h7] at h6
  have h8 := h5.trans h6
  rw [abs_le] at h3 h4 h8 ⊢
  norm_num at *
  constructor <;> linarith

/-- The exact length of the two differences. -/
noncomputable def sumR (a : Pt ℝ) (x1 y1 x2 y2 : ℝ) : ℝ := hyp (a.xs - x1) (a.ys - y1) + hyp (a.xr - x2) (a.yr - y2)

/-- A trace whose coordinates are floats. -/
def Singles (c : Crd ℚ) : Prop := IsSingle c.xs ∧ IsSingle c.ys ∧ IsSingle c.xr ∧ IsSingle c.yr

/-- The coordinates of a trace as real numbers. -/
def real (c : Crd ℚ) : Pt ℝ := ⟨c.xs, c.ys, c.xr, c.yr, c.tn⟩

theorem sumS_err {f : ℚ → ℚ} (hf : GoodRoot f) {a : Crd ℚ} (ha : Singles a) {x1 y1 x2 y2 : ℚ} (h1 : IsSingle x1)
    (h2 : IsSingle y1) (h3 : IsSingle x2) (h4 : IsSingle y2) :
    |(sumS f a x1 y1 x2 y2 : ℝ) - sumR (real a) x1 y1 x2 y2| ≤ sumR (real a) x1 y1 x2 y2 / 2 ^ 21 + 5 / 2 ^ 74 := by
  obtain ⟨s1, s2, s3, s4⟩ := ha
  have e1 := hypS_err hf s1 s2 h1 h2
  have e2 := hypS_err hf s3 s4 h3 h4
  unfold sumS sumR real
  have n1 : 0 ≤ hypS f (rnd (a.xs - x1)) (rnd (a.ys - y1)) := hf.nonneg (rnd_nonneg (add_nonneg (rnd_nonneg (mul_self_nonneg _)) (rnd_nonneg (mul_self_nonneg _))))
  have n2 : 0 ≤ hypS f (rnd (a.xr - x2)) (rnd (a.yr - y2)) := hf.nonneg (rnd_nonneg (add_nonneg (rnd_nonneg (mul_self_nonneg _)) (rnd_nonneg (mul_self_nonneg _))))
  dsimp only
  generalize hypS f (rnd (a.xs - x1)) (rnd (a.ys - y1)) = p at *
  generalize hypS f (rnd (a.xr - x2)) (rnd (a.yr - y2)) = q at *
  have h5 := tiny_err (p + q)
  rw [abs_of_nonneg (add_nonneg n1 n2)] at h5
  have h5' := (Rat.cast_le (K := ℝ)).2 h5
  push_cast at h5'
  have g1 := hyp_nonneg ((a.xs : ℝ) - x1) (a.ys - y1)
  have g2 := hyp_nonneg ((a.xr : ℝ) - x2) (a.yr - y2)
  generalize hyp ((a.xs : ℝ) - x1) (a.ys - y1) = H1 at *
  generalize hyp ((a.xr : ℝ) - x2) (a.yr - y2) = H2 at *
  generalize (rnd (p + q) : ℝ) = r at *
  rw [abs_le] at e1 e2 h5' ⊢
  norm_num at *
  constructor <;> linarith

theorem hyp_one : hyp 1 1 ≤ 17 / 12 := by
  unfold hyp
  rw [Real.sqrt_le_left (by norm_num)]
  norm_num

/-- Coordinates that are known up to `δ`. -/
def Close (δ : ℝ) (a : Crd ℚ) (A : Pt ℝ) : Prop :=
  |(a.xs : ℝ) - A.xs| ≤ δ ∧ |(a.ys : ℝ) - A.ys| ≤ δ ∧ |(a.xr : ℝ) - A.xr| ≤ δ ∧ |(a.yr : ℝ) - A.yr| ≤ δ

theorem diff_err {δ a b A B : ℝ} (h1 : |a - A| ≤ δ) (h2 : |b - B| ≤ δ) : |(a - b) - (A - B)| ≤ 2 * δ := by
  rw [abs_le] at *
  constructor <;> linarith

theorem sumR_err {δ : ℝ} {a : Crd ℚ} {A : Pt ℝ} (h : Close δ a A) {x1 y1 x2 y2 X1 Y1 X2 Y2 : ℝ} (h1 : |x1 - X1| ≤ δ)
    (h2 : |y1 - Y1| ≤ δ) (h3 : |x2 - X2| ≤ δ) (h4 : |y2 - Y2| ≤ δ) :
    |sumR (real a) x1 y1 x2 y2 - sumR A X1 Y1 X2 Y2| ≤ δ * (17 / 3) := by
  obtain ⟨c1, c2, c3, c4⟩ := h
  have hδ : 0 ≤ δ := le_trans (abs_nonneg _) h1
  have hd : hyp (2 * δ) (2 * δ) ≤ 17 / 12 * (2 * δ) := by
    have := hyp_scale (k := 2 * δ) (by linarith) 1 1
    rw [one_mul] at this
    rw [this]
    exact mul_le_mul_of_nonneg_right hyp_one (by linarith)
  have e1 := (hyp_diff ((a.xs : ℝ) - x1) (a.ys - y1) (A.xs - X1) (A.ys - Y1)).trans
    ((hyp_mono (diff_err c1 h1) (diff_err c2 h2)).trans hd)
  have e2 := (hyp_diff ((a.xr : ℝ) - x2) (a.yr - y2) (A.xr - X2) (A.yr - Y2)).trans
    ((hyp_mono (diff_err c3 h3) (diff_err c4 h4)).trans hd)
  unfold sumR real
  dsimp only
  rw [abs_le] at *
  constructor <;> linarith

theorem sumR_nonneg (A : Pt ℝ) (x1 y1 x2 y2 : ℝ) : 0 ≤ sumR A x1 y1 x2 y2 := add_nonneg (hyp_nonneg _ _) (hyp_nonneg _ _)

theorem close_all {f : ℚ → ℚ} (hf : GoodRoot f) {ε : ℝ} (hε : 1 / 2 ^ 60 ≤ ε) {a : Crd ℚ} {A : Pt ℝ} (hs : Singles a)
    (ha : Close (ε * (1 / 2 + 1 / 2 ^ 20)) a A) {x1 y1 x2 y2 : ℚ} {X1 Y1 X2 Y2 : ℝ} (s1 : IsSingle x1) (s2 : IsSingle y1)
    (s3 : IsSingle x2) (s4 : IsSingle y2) (h1 : |(x1 : ℝ) - X1| ≤ ε * (1 / 2 + 1 / 2 ^ 20))
    (h2 : |(y1 : ℝ) - Y1| ≤ ε * (1 / 2 + 1 / 2 ^ 20)) (h3 : |(x2 : ℝ) - X2| ≤ ε * (1 / 2 + 1 / 2 ^ 20))
    (h4 : |(y2 : ℝ) - Y2| ≤ ε * (1 / 2 + 1 / 2 ^ 20)) :
    |(sumS f a x1 y1 x2 y2 : ℝ) - sumR A X1 Y1 X2 Y2| ≤ 3 * ε + sumR A X1 Y1 X2 Y2 / 2 ^ 21 := by
  have e1 := sumS_err hf hs s1 s2 s3 s4
  have e2 := sumR_err ha h1 h2 h3 h4
  have n := sumR_nonneg A X1 Y1 X2 Y2
  generalize sumR A X1 Y1 X2 Y2 = D at *
  generalize sumR (real a) x1 y1 x2 y2 = H at *
  generalize (sumS f a x1 y1 x2 y2 : ℝ) = c at *
  rw [abs_le] at *
  norm_num at *
  constructor <;> linarith

theorem min_err {f g F G e : ℝ} (h1 : |f - F| ≤ e + F / 2 ^ 21) (h2 : |g - G| ≤ e + G / 2 ^ 21) :
    |min f g - min F G| ≤ e + min F G / 2 ^ 21 := by
  rw [abs_le] at *
  rcases min_cases f g with ⟨e1, k1⟩ | ⟨e1, k1⟩ <;> rcases min_cases F G with ⟨e2, k2⟩ | ⟨e2, k2⟩ <;> rw [e1, e2] <;>
    constructor <;> linarith

theorem dsrS_err {f : ℚ → ℚ} (hf : GoodRoot f) {ε : ℝ} (hε : 1 / 2 ^ 60 ≤ ε) {a b : Crd ℚ} {A B : Pt ℝ} (sa : Singles a)
    (sb : Singles b) (ha : Close (ε * (1 / 2 + 1 / 2 ^ 20)) a A) (hb : Close (ε * (1 / 2 + 1 / 2 ^ 20)) b B) :
    |(dsrS f a b : ℝ) - dsr hyp A B| ≤ 3 * ε + dsr hyp A B / 2 ^ 21 := by
  obtain ⟨b1, b2, b3, b4⟩ := hb
  obtain ⟨t1, t2, t3, t4⟩ := sb
  have h1 := close_all hf hε sa ha t1 t2 t3 t4 b1 b2 b3 b4
  have h2 := close_all hf hε sa ha t3 t4 t1 t2 b3 b4 b1 b2
  have := min_err h1 h2
  unfold dsrS
  rw [Rat.cast_min]
  exact this

/-! ### The coordinates of the headers -/

/-- What a coordinate of a header means. -/
def meant (d : Disk) (ns k loc : Nat) : ℚ := unit (be16 d ns k 71) * (be32 d ns k loc).toInt

/-- Where source and receiver of trace `k` are according to its header. -/
def place (d : Disk) (ns k : Nat) : Pt ℝ := ⟨meant d ns k 73, meant d ns k 77, meant d ns k 81, meant d ns k 85, k⟩

/-- All coordinates of the file are `2 ^ (E + 24)` at most. -/
def Within (E : ℤ) (d : Disk) (i : Info) : Prop :=
  ∀ k, k < i.nt → ∀ loc ∈ [73, 77, 81, 85], |meant d i.ns k loc| ≤ 2 ^ (E + 24)

theorem unit_pos (s : BitVec 16) : 0 < unit s ∧ 1 / 2 ^ 15 ≤ unit s ∧ unit s < 2 ^ 15 := by
  have h1 := BitVec.le_toInt s
  have h2 := BitVec.toInt_lt (x := s)
  norm_num at h1 h2
  unfold unit
  split_ifs with h3 h4
  · norm_num
  · have h5 : (1 : ℚ) ≤ s.toInt := by exact_mod_cast h4
    have h6 : (s.toInt : ℚ) < 2 ^ 15 := by exact_mod_cast h2
    exact ⟨by linarith, le_trans (by norm_num) h5, h6⟩
  · have h5 : (1 : ℚ) ≤ ((-s.toInt : ℤ) : ℚ) := by exact_mod_cast (show 1 ≤ -s.toInt by omega)
    have h6 : ((-s.toInt : ℤ) : ℚ) ≤ 2 ^ 15 := by
      have : -s.toInt ≤ 2 ^ 15 := by omega
      exact_mod_cast this
    have h0 : (0 : ℚ) < ((-s.toInt : ℤ) : ℚ) := by linarith
    refine ⟨by positivity, one_div_le_one_div_of_le h0 h6, ?_⟩
    rw [div_lt_iff₀ h0]
    linarith

theorem low16 : (2 : ℚ) ^ (-1022 : ℤ) ≤ 1 / 2 ^ 16 :=
  le_trans (zpow_le_zpow_right₀ (by norm_num) (show (-1022 : ℤ) ≤ -16 by norm_num)) (by norm_num [zpow_neg])

theorem decode_err (s : BitVec 16) (n : BitVec 32) :
    |decode s n - unit s * n.toInt| ≤ |unit s * n.toInt| / 2 ^ 51 := by
  obtain ⟨h0, h1, h2⟩ := unit_pos s
  by_cases hn : n.toInt = 0
  · unfold decode
    rw [hn]
    simp [Verif.FP.rnd_zero]
  have hp : |parseScalar s - unit s| ≤ unit s / 2 ^ 53 := by
    unfold parseScalar unit at *
    split_ifs at * with h3 h4
    · rw [sub_self, abs_zero]; norm_num
    · rw [sub_self, abs_zero]
      have : (0 : ℚ) < s.toInt := h0
      positivity
    · have := Verif.FP.rnd_err (x := 1 / ((-s.toInt : ℤ) : ℚ)) (by
        rw [abs_of_pos h0]
        exact low16.trans (le_trans (by norm_num) h1))
      rwa [abs_of_pos h0] at this
  have hn1 : (1 : ℚ) ≤ |(n.toInt : ℚ)| := by
    have : 1 ≤ |n.toInt| := Int.one_le_abs hn
    exact_mod_cast this
  have hpp : 1 / 2 ^ 16 ≤ parseScalar s := by
    rw [abs_le] at hp
    norm_num at *
    linarith
  have hq : |parseScalar s * n.toInt - unit s * n.toInt| ≤ |unit s * n.toInt| / 2 ^ 53 := by
    rw [← sub_mul, abs_mul, abs_mul, abs_of_pos h0, mul_div_right_comm]
    exact mul_le_mul_of_nonneg_right hp (abs_nonneg _)
  have hx := Verif.FP.rnd_err (x := parseScalar s * n.toInt) (by
    rw [abs_mul, abs_of_pos (lt_of_lt_of_le (by norm_num) hpp)]
    calc (2 : ℚ) ^ (-1022 : ℤ) ≤ 1 / 2 ^ 16 := low16
      _ ≤ parseScalar s * 1 := by rw [mul_one]; exact hpp
      _ ≤ _ := mul_le_mul_of_nonneg_left hn1 (le_trans (by norm_num) hpp))
  unfold decode
  generalize Verif.FP.rnd (parseScalar s * n.toInt) = r at *
  generalize parseScalar s * (n.toInt : ℚ) = p at *
  generalize unit s * (n.toInt : ℚ) = x at *
  have hpx : |p| ≤ |x| + |x| / 2 ^ 53 := by
    have := abs_sub_abs_le_abs_sub p x
    linarith
  have := abs_sub_le r p x
  norm_num at *
  have hx0 := abs_nonneg x
  linarith

theorem coord_err {E : ℤ} (hE : -60 ≤ E) {s : BitVec 16} {n : BitVec 32} (h : |unit s * n.toInt| ≤ 2 ^ (E + 24)) :
    |rnd (decode s n) - unit s * n.toInt| ≤ 2 ^ E * (1 / 2 + 1 / 2 ^ 20) := by
  have h1 := decode_err s n
  have hp := Verif.FP.two_zpow_pos E
  have he : (2 : ℚ) ^ (E + 24) = 2 ^ E * 2 ^ 24 := by
    rw [zpow_add₀ (by norm_num)]; norm_num
  generalize unit s * (n.toInt : ℚ) = x at *
  generalize decode s n = y at *
  have h2 : |rnd y - y| ≤ 2 ^ E * (1 / 2 + 1 / 2 ^ 25) := by
    rcases lt_or_ge |y| (2 ^ (E + 24)) with hy | hy
    · refine (rnd_err_lt hy (by omega)).trans ?_
      have : (0 : ℚ) < 2 ^ E * (1 / 2 ^ 25) := by positivity
      linarith
    · -- the border itself is a float
      have hs : IsSingle ((2 : ℚ) ^ (E + 24)) := ⟨1, E + 24, by norm_num, by omega, by simp⟩
      have hle : |y| - 2 ^ (E + 24) ≤ 2 ^ E * (1 / 2 ^ 27) := by
        have := abs_sub_abs_le_abs_sub y x
        rw [he] at *
        norm_num at *
        linarith
      have hnear : |rnd y - y| ≤ |y| - 2 ^ (E + 24) := by
        rcases le_total 0 y with h0 | h0
        · rw [abs_of_nonneg h0] at hy ⊢
          have := rnd_nearest (x := y) hs
          rwa [abs_sub_comm (2 ^ (E + 24)) y, abs_of_nonneg (show 0 ≤ y - 2 ^ (E + 24) by linarith)] at this
        · rw [abs_of_nonpos h0] at hy ⊢
          have := rnd_nearest (x := y) hs.neg
          rwa [show -(2 : ℚ) ^ (E + 24) - y = -y - 2 ^ (E + 24) by ring, abs_of_nonneg (show 0 ≤ -y - 2 ^ (E + 24) by linarith)] at this
      refine hnear.trans (hle.trans ?_)
      norm_num at *
      linarith
  have := abs_sub_le (rnd y) y x
  rw [he] at h
  norm_num at *
  linarith

theorem crd_singles (dflt : Crd ℚ) (ixline : Bool) (d : Disk) (ns k : Nat) : Singles (crdOf rnd dflt ixline d ns k) :=
  ⟨isSingle_rnd _, isSingle_rnd _, isSingle_rnd _, isSingle_rnd _⟩

theorem coord_errR {E : ℤ} (hE : -60 ≤ E) {s : BitVec 16} {n : BitVec 32} (h : |unit s * n.toInt| ≤ 2 ^ (E + 24)) :
    |((rnd (decode s n) : ℚ) : ℝ) - ((unit s * n.toInt : ℚ) : ℝ)| ≤ (2 : ℝ) ^ E * (1 / 2 + 1 / 2 ^ 20) := by
  have := (Rat.cast_le (K := ℝ)).2 (coord_err hE h)
  push_cast at this ⊢
  exact this

theorem Within.close {E : ℤ} (hE : -60 ≤ E) {d : Disk} {i : Info} (w : Within E d i) (dflt : Crd ℚ) (ixline : Bool) {k : Nat}
    (hk : k < i.nt) : Close ((2 : ℝ) ^ E * (1 / 2 + 1 / 2 ^ 20)) (crdOf rnd dflt ixline d i.ns k) (place d i.ns k) :=
  ⟨coord_errR hE (w k hk 73 (by simp)), coord_errR hE (w k hk 77 (by simp)), coord_errR hE (w k hk 81 (by simp)),
    coord_errR hE (w k hk 85 (by simp))⟩

theorem eps_ge {E : ℤ} (hE : -60 ≤ E) : (1 : ℝ) / 2 ^ 60 ≤ 2 ^ E := by
  refine le_trans (le_of_eq ?_) (zpow_le_zpow_right₀ (by norm_num) hE)
  rw [zpow_neg, one_div]
  norm_num

/-- **C97** (the criterion, partial): for any two traces of two files, the criterion that the program computes is that of the
places given by the headers up to three times the spacing of floats of the size of the coordinates, and a relative error of
`2 ^ -21`. Missing: that the criterion is as accurate as the headers, which is refuted. -/
theorem C97_criterion_partial (f : ℚ → ℚ) (hf : GoodRoot f) (E : ℤ) (hE : -60 ≤ E) (dflt : Crd ℚ) (ixline : Bool) (d1 d2 : Disk)
    (i1 i2 : Info) (w1 : Within E d1 i1) (w2 : Within E d2 i2) (a b : Nat) (ha : a < i1.nt) (hb : b < i2.nt) :
    |(dsrS f (crdOf rnd dflt ixline d1 i1.ns a) (crdOf rnd dflt ixline d2 i2.ns b) : ℝ) -
        dsr hyp (place d1 i1.ns a) (place d2 i2.ns b)| ≤
      3 * 2 ^ E + dsr hyp (place d1 i1.ns a) (place d2 i2.ns b) / 2 ^ 21 :=
  dsrS_err hf (eps_ge hE) (crd_singles ..) (crd_singles ..) (w1.close hE dflt ixline ha) (w2.close hE dflt ixline hb)

/-! ### No overflow -/

theorem fin {x : ℚ} (h : |x| ≤ 2 ^ 120) : F32.of x = F32.num (rnd x) := by
  refine F32.of_fin (lt_of_le_of_lt (rnd_abs_le ⟨1, 120, by norm_num, by norm_num, by norm_num⟩ h) (by norm_num))

theorem rnd_pow {x : ℚ} {n : Nat} (h : |x| ≤ 2 ^ n) : |rnd x| ≤ 2 ^ n :=
  rnd_abs_le ⟨1, n, by norm_num, by omega, by simp⟩ h

theorem decode_le (s : BitVec 16) (n : BitVec 32) : |decode s n| ≤ 2 ^ 47 := by
  have h1 := decode_err s n
  obtain ⟨h2, -, h3⟩ := unit_pos s
  have h4 : |(n.toInt : ℚ)| ≤ 2 ^ 31 := by
    have a := BitVec.le_toInt n
    have b := BitVec.toInt_lt (x := n)
    norm_num at a b
    have : |n.toInt| ≤ 2 ^ 31 := by rw [abs_le]; omega
    exact_mod_cast this
  have h5 : |unit s * n.toInt| ≤ 2 ^ 46 := by
    rw [abs_mul, abs_of_pos h2]
    calc unit s * |(n.toInt : ℚ)| ≤ 2 ^ 15 * 2 ^ 31 := mul_le_mul h3.le h4 (abs_nonneg _) (by norm_num)
      _ = 2 ^ 46 := by norm_num
  have := abs_sub_abs_le_abs_sub (decode s n) (unit s * n.toInt)
  generalize |unit s * (n.toInt : ℚ)| = x at *
  norm_num at *
  linarith

/-- Coordinates of the size of those in headers. -/
def Small (c : Crd ℚ) : Prop := |c.xs| ≤ 2 ^ 47 ∧ |c.ys| ≤ 2 ^ 47 ∧ |c.xr| ≤ 2 ^ 47 ∧ |c.yr| ≤ 2 ^ 47

theorem crd_small (dflt : Crd ℚ) (ixline : Bool) (d : Disk) (ns k : Nat) : Small (crdOf rnd dflt ixline d ns k) :=
  ⟨rnd_pow (decode_le ..), rnd_pow (decode_le ..), rnd_pow (decode_le ..), rnd_pow (decode_le ..)⟩

theorem sub_small {a b : ℚ} (ha : |a| ≤ 2 ^ 47) (hb : |b| ≤ 2 ^ 47) : |rnd (a - b)| ≤ 2 ^ 48 := by
  refine rnd_pow ?_
  rw [abs_le] at *
  norm_num at *
  constructor <;> linarith

theorem subF_num {a b : ℚ} (ha : |a| ≤ 2 ^ 47) (hb : |b| ≤ 2 ^ 47) : subF (.num a) (.num b) = .num (rnd (a - b)) := by
  rw [subF, F32.num_add, ← sub_eq_add_neg, fin]
  rw [abs_le] at *
  norm_num at *
  constructor <;> linarith

theorem sq_small {x : ℚ} (hx : |x| ≤ 2 ^ 48) : |x * x| ≤ 2 ^ 96 := by
  rw [abs_mul]
  calc |x| * |x| ≤ 2 ^ 48 * 2 ^ 48 := mul_le_mul hx hx (abs_nonneg _) (by norm_num)
    _ = 2 ^ 96 := by norm_num

theorem sum_small {x y : ℚ} (hx : |x| ≤ 2 ^ 48) (hy : |y| ≤ 2 ^ 48) :
    |rnd (x * x) + rnd (y * y)| ≤ 2 ^ 97 := by
  have h1 := rnd_pow (sq_small hx)
  have h2 := rnd_pow (sq_small hy)
  have := abs_add_le (rnd (x * x)) (rnd (y * y))
  norm_num at *
  linarith

theorem hypF_num {f : ℚ → ℚ} {x y : ℚ} (hx : |x| ≤ 2 ^ 48) (hy : |y| ≤ 2 ^ 48) :
    hypF f (.num x) (.num y) = .num (hypS f x y) := by
  have h3 := sum_small hx hy
  unfold hypF hypS
  rw [F32.num_mul, F32.num_mul, fin ((sq_small hx).trans (by norm_num)), fin ((sq_small hy).trans (by norm_num)), F32.num_add,
    fin (h3.trans (by norm_num)), F32.sqrt, if_neg]
  exact not_lt.2 (rnd_nonneg (add_nonneg (rnd_nonneg (mul_self_nonneg x)) (rnd_nonneg (mul_self_nonneg y))))

theorem hypS_small {f : ℚ → ℚ} (hf : GoodRoot f) {x y : ℚ} (hx : |x| ≤ 2 ^ 48) (hy : |y| ≤ 2 ^ 48) :
    0 ≤ hypS f x y ∧ hypS f x y ≤ 2 ^ 50 := by
  have h3 := rnd_pow (sum_small hx hy)
  have h0 : 0 ≤ rnd (rnd (x * x) + rnd (y * y)) :=
    rnd_nonneg (add_nonneg (rnd_nonneg (mul_self_nonneg x)) (rnd_nonneg (mul_self_nonneg y)))
  unfold hypS
  rw [abs_of_nonneg h0] at h3
  generalize rnd (rnd (x * x) + rnd (y * y)) = q at *
  refine ⟨hf.nonneg h0, ?_⟩
  have h4 := (abs_le.1 (hf q h0)).2
  have h5 : √(q : ℝ) ≤ 2 ^ 49 := by
    rw [Real.sqrt_le_left (by norm_num)]
    have := (Rat.cast_le (K := ℝ)).2 h3
    push_cast at this
    refine this.trans ?_
    norm_num
  have h6 : (f q : ℝ) ≤ ((2 ^ 50 : ℚ) : ℝ) := by
    push_cast
    have := Real.sqrt_nonneg (q : ℝ)
    norm_num at *
    linarith
  exact_mod_cast h6

theorem sumF_num {f : ℚ → ℚ} (hf : GoodRoot f) {a : Crd ℚ} (ha : Small a) {x1 y1 x2 y2 : ℚ} (h1 : |x1| ≤ 2 ^ 47)
    (h2 : |y1| ≤ 2 ^ 47) (h3 : |x2| ≤ 2 ^ 47) (h4 : |y2| ≤ 2 ^ 47) :
    sumF f (floats a) (.num x1) (.num y1) (.num x2) (.num y2) = .num (sumS f a x1 y1 x2 y2) := by
  obtain ⟨a1, a2, a3, a4⟩ := ha
  unfold sumF sumS floats
  dsimp only
  rw [subF_num a1 h1, subF_num a2 h2, subF_num a3 h3, subF_num a4 h4, hypF_num (sub_small a1 h1) (sub_small a2 h2),
    hypF_num (sub_small a3 h3) (sub_small a4 h4), F32.num_add, fin]
  obtain ⟨k1, k2⟩ := hypS_small hf (sub_small a1 h1) (sub_small a2 h2)
  obtain ⟨k3, k4⟩ := hypS_small hf (sub_small a3 h3) (sub_small a4 h4)
  rw [abs_of_nonneg (add_nonneg k1 k3)]
  norm_num at *
  linarith

theorem dsrF_num {f : ℚ → ℚ} (hf : GoodRoot f) {a b : Crd ℚ} (ha : Small a) (hb : Small b) :
    dsrF f (floats a) (floats b) = .num (dsrS f a b) := by
  obtain ⟨b1, b2, b3, b4⟩ := hb
  unfold dsrF dsrS
  have e1 := sumF_num hf ha b1 b2 b3 b4
  have e2 := sumF_num hf ha b3 b4 b1 b2
  show (if ltF (sumF f (floats a) (.num b.xr) (.num b.yr) (.num b.xs) (.num b.ys))
    (sumF f (floats a) (.num b.xs) (.num b.ys) (.num b.xr) (.num b.yr)) then
      sumF f (floats a) (.num b.xr) (.num b.yr) (.num b.xs) (.num b.ys) else
      sumF f (floats a) (.num b.xs) (.num b.ys) (.num b.xr) (.num b.yr)) = _
  rw [e1, e2, ltF]
  split_ifs with h
  · rw [min_eq_right (of_decide_eq_true h).le]
  · rw [min_eq_left (not_lt.1 fun hc => h (decide_eq_true hc))]

/-- **C97** (no overflow): whatever two files hold, no calculation of a criterion gives an infinity or not-a-number; the
criterion is the number that the search is run with. -/
theorem C97_finite (f : ℚ → ℚ) (hf : GoodRoot f) (dflt : Crd ℚ) (ixline : Bool) (d1 d2 : Disk) (ns1 ns2 a b : Nat) :
    dsrF f (floats (crdOf rnd dflt ixline d1 ns1 a)) (floats (crdOf rnd dflt ixline d2 ns2 b)) =
      .num (dsrS f (crdOf rnd dflt ixline d1 ns1 a) (crdOf rnd dflt ixline d2 ns2 b)) :=
  dsrF_num hf (crd_small ..) (crd_small ..)

theorem dsrS_nonneg {f : ℚ → ℚ} (hf : GoodRoot f) (a b : Crd ℚ) : 0 ≤ dsrS f a b := by
  have h : ∀ x y, 0 ≤ hypS f x y := fun x y =>
    hf.nonneg (rnd_nonneg (add_nonneg (rnd_nonneg (mul_self_nonneg _)) (rnd_nonneg (mul_self_nonneg _))))
  exact le_min (rnd_nonneg (add_nonneg (h _ _) (h _ _))) (rnd_nonneg (add_nonneg (h _ _) (h _ _)))

/-! ### The program -/

/-- The criterion of two traces, exactly, from what their headers say. -/
noncomputable def distance (d1 d2 : Disk) (i1 i2 : Info) (a b : Nat) : ℝ := dsr hyp (place d1 i1.ns a) (place d2 i2.ns b)

theorem distance_nonneg (d1 d2 : Disk) (i1 i2 : Info) (a b : Nat) : 0 ≤ distance d1 d2 i1 i2 a b :=
  le_min (add_nonneg (hyp_nonneg _ _) (hyp_nonneg _ _)) (add_nonneg (hyp_nonneg _ _) (hyp_nonneg _ _))

/-- The traces have the same lines. -/
def SameLines (d1 d2 : Disk) (i1 i2 : Info) (a b : Nat) : Prop :=
  be32 d1 i1.ns a 189 = be32 d2 i2.ns b 189 ∧ be32 d1 i1.ns a 193 = be32 d2 i2.ns b 193

theorem crit_same {f : ℚ → ℚ} {ixline : Bool} {dmax : ℚ} {dflt : Crd ℚ} {d1 d2 : Disk} {i1 i2 : Info} {a b : Nat}
    (h : ixline = true → SameLines d1 d2 i1 i2 a b) :
    (geoS f ixline dmax).crit (crdOf rnd dflt ixline d1 i1.ns a) (crdOf rnd dflt ixline d2 i2.ns b) =
      dsrS f (crdOf rnd dflt ixline d1 i1.ns a) (crdOf rnd dflt ixline d2 i2.ns b) := by
  unfold geoS
  dsimp only
  rw [if_pos]
  cases ixline with
  | false => rfl
  | true =>
    obtain ⟨h1, h2⟩ := h rfl
    unfold crdOf
    simp [h1, h2]

theorem crit_other {f : ℚ → ℚ} {dmax : ℚ} {dflt : Crd ℚ} {d1 d2 : Disk} {i1 i2 : Info} {a b : Nat}
    (h : ¬ SameLines d1 d2 i1 i2 a b) :
    (geoS f true dmax).crit (crdOf rnd dflt true d1 i1.ns a) (crdOf rnd dflt true d2 i2.ns b) = maxS := by
  unfold geoS
  dsimp only
  rw [if_neg]
  unfold crdOf SameLines at *
  simp only [if_true, Bool.not_true, Bool.false_or, Bool.and_eq_true, decide_eq_true_eq]
  rintro ⟨h1, h2⟩
  exact h ⟨BitVec.eq_of_toInt_eq h1, BitVec.eq_of_toInt_eq h2⟩

theorem maxS_big : (2 : ℚ) ^ 100 < maxS := by unfold maxS; norm_num

theorem hi_below {f : ℚ → ℚ} {ixline : Bool} {dmax : ℚ} (h0 : 0 ≤ dmax) (hd : dmax ≤ 2 ^ 31 - 1) (dflt : Crd ℚ) (d : Disk) (ns k : Nat) :
    (geoS f ixline dmax).hi ((geoS f ixline dmax).xs (crdOf rnd dflt ixline d ns k)) < (geoS f ixline dmax).big := by
  obtain ⟨h1, -⟩ := crd_small dflt ixline d ns k
  show rnd ((crdOf rnd dflt ixline d ns k).xs + dmax) < maxS
  refine lt_of_le_of_lt ((le_abs_self _).trans (rnd_pow (n := 100) ?_)) maxS_big
  rw [abs_le] at *
  norm_num at *
  constructor <;> linarith

theorem crit_nonneg {f : ℚ → ℚ} (hf : GoodRoot f) {ixline : Bool} {dmax : ℚ} (t u : Crd ℚ) : 0 ≤ (geoS f ixline dmax).crit t u := by
  unfold geoS
  dsimp only
  split_ifs
  · exact dsrS_nonneg hf t u
  · unfold maxS; norm_num

/-- How far apart the sources are, in direction x, from what the headers say. -/
def apart (d1 d2 : Disk) (i1 i2 : Info) (a b : Nat) : ℚ := |meant d1 i1.ns a 73 - meant d2 i2.ns b 73|

theorem apart_le {E : ℤ} (hE : -60 ≤ E) {d1 d2 : Disk} {i1 i2 : Info} (w1 : Within E d1 i1) (w2 : Within E d2 i2) {dmax : ℚ}
    (dflt : Crd ℚ) (ixline : Bool) {a b : Nat} (ha : a < i1.nt) (hb : b < i2.nt) (h : apart d1 d2 i1 i2 a b + 2 * 2 ^ E ≤ dmax) :
    (crdOf rnd dflt ixline d1 i1.ns a).xs - dmax ≤ (crdOf rnd dflt ixline d2 i2.ns b).xs ∧
    (crdOf rnd dflt ixline d2 i2.ns b).xs - dmax ≤ (crdOf rnd dflt ixline d1 i1.ns a).xs := by
  have h1 := coord_err hE (w1 a ha 73 (by simp))
  have h2 := coord_err hE (w2 b hb 73 (by simp))
  unfold apart meant at h
  show rnd (decode (be16 d1 i1.ns a 71) (be32 d1 i1.ns a 73)) - dmax ≤ rnd (decode (be16 d2 i2.ns b 71) (be32 d2 i2.ns b 73)) ∧
    rnd (decode (be16 d2 i2.ns b 71) (be32 d2 i2.ns b 73)) - dmax ≤ rnd (decode (be16 d1 i1.ns a 71) (be32 d1 i1.ns a 73))
  generalize rnd (decode (be16 d1 i1.ns a 71) (be32 d1 i1.ns a 73)) = x at *
  generalize rnd (decode (be16 d2 i2.ns b 71) (be32 d2 i2.ns b 73)) = y at *
  generalize unit (be16 d1 i1.ns a 71) * ((be32 d1 i1.ns a 73).toInt : ℚ) = X at *
  generalize unit (be16 d2 i2.ns b 71) * ((be32 d2 i2.ns b 73).toInt : ℚ) = Y at *
  have hp := Verif.FP.two_zpow_pos E
  have k1 := le_abs_self (X - Y)
  have k2 := neg_abs_le (X - Y)
  rw [abs_le] at h1 h2
  generalize (2 : ℚ) ^ E = e at *
  norm_num at *
  constructor <;> linarith

/-- What the program finds: every trace of the first file occurs once at most; the two traces of a pair are within the limit of
each other and the criterion is theirs, up to the errors; and a trace of the first file is there, with a partner that is not
farther than any trace of the second file near to it up to the errors, if both have a later trace near enough on their
processes. -/
structure Chosen (E : ℤ) (dmax : ℚ) (ixline : Bool) (d1 d2 : Disk) (i1 i2 : Info) (c1s c2s : List (List (Crd ℚ)))
    (pairs : List (Nat × Nat × ℚ)) : Prop where
  once : (pairs.map Prod.fst).Nodup
  near : ∀ a b v, (a, b, v) ∈ pairs → a < i1.nt ∧ b < i2.nt ∧ (ixline = true → SameLines d1 d2 i1 i2 a b) ∧
    |(v : ℝ) - distance d1 d2 i1 i2 a b| ≤ 3 * 2 ^ E + distance d1 d2 i1 i2 a b / 2 ^ 21 ∧
    distance d1 d2 i1 i2 a b * (1 - 1 / 2 ^ 21) ≤ dmax + 3 * 2 ^ E
  best : ∀ c1 ∈ c1s, ∀ c2 ∈ c2s, ∀ (i j i' j' : Nat) t u t' u', c1[i]? = some t → c2[j]? = some u →
    apart d1 d2 i1 i2 t.tn u.tn + 2 * 2 ^ E ≤ dmax → c1[i']? = some t' → i < i' →
    apart d1 d2 i1 i2 t'.tn u.tn + 2 * 2 ^ E ≤ dmax → c2[j']? = some u' → j < j' →
    apart d1 d2 i1 i2 t.tn u'.tn + 2 * 2 ^ E ≤ dmax → (ixline = true → SameLines d1 d2 i1 i2 t.tn u.tn) →
    distance d1 d2 i1 i2 t.tn u.tn * (1 + 1 / 2 ^ 21) + 3 * 2 ^ E ≤ dmax →
    ∃ b v, (t.tn, b, v) ∈ pairs ∧
      distance d1 d2 i1 i2 t.tn b * (1 - 1 / 2 ^ 21) ≤ distance d1 d2 i1 i2 t.tn u.tn * (1 + 1 / 2 ^ 21) + 6 * 2 ^ E

theorem chosen_of {f : ℚ → ℚ} (hf : GoodRoot f) {E : ℤ} (hE : -60 ≤ E) {dmax : ℚ} (hd1 : dmax ≤ 2 ^ 31 - 1) {dflt : Crd ℚ}
    {ixline : Bool} {P : Nat} {d1 d2 : Disk} {i1 i2 : Info} (w1 : Within E d1 i1) (w2 : Within E d2 i2)
    {c1s c2s : List (List (Crd ℚ))} (H1 : Held rnd dflt ixline P d1 i1 c1s) (H2 : Held rnd dflt ixline P d2 i2 c2s)
    {pairs : List (Nat × Nat × ℚ)} (hp : Pairs (geoS f ixline dmax) rnd dflt ixline d1 d2 i1 i2 c1s c2s pairs) :
    Chosen E dmax ixline d1 d2 i1 i2 c1s c2s pairs := by
  have hreal : ∀ a b v, (a, b, v) ∈ pairs → a < i1.nt ∧ b < i2.nt ∧ (ixline = true → SameLines d1 d2 i1 i2 a b) ∧
      |(v : ℝ) - distance d1 d2 i1 i2 a b| ≤ 3 * 2 ^ E + distance d1 d2 i1 i2 a b / 2 ^ 21 ∧ v ≤ dmax := by
    intro a b v hm
    obtain ⟨ha, hb, hv, hvd⟩ := hp.real a b v hm
    have hvd : v ≤ dmax := hvd
    have hsame : ixline = true → SameLines d1 d2 i1 i2 a b := by
      intro hix
      by_contra hno
      subst hix
      rw [crit_other hno] at hv
      have := maxS_big
      norm_num at this hd1
      linarith
    refine ⟨ha, hb, hsame, ?_, hvd⟩
    rw [hv, crit_same hsame]
    exact C97_criterion_partial f hf E hE dflt ixline d1 d2 i1 i2 w1 w2 a b ha hb
  refine ⟨hp.once, ?_, ?_⟩
  · intro a b v hm
    obtain ⟨ha, hb, hsame, he, hvd⟩ := hreal a b v hm
    refine ⟨ha, hb, hsame, he, ?_⟩
    have hv' : (v : ℝ) ≤ dmax := by exact_mod_cast hvd
    have := (abs_le.1 he).1
    linarith
  · intro c1 hc1 c2 hc2 i j i' j' t u t' u' ht hu n1 ht' hi n2 hu' hj n3 hsame hlim
    have m1 : t ∈ c1s.flatten := List.mem_flatten.2 ⟨c1, hc1, List.mem_of_getElem? ht⟩
    have m2 : t' ∈ c1s.flatten := List.mem_flatten.2 ⟨c1, hc1, List.mem_of_getElem? ht'⟩
    have m3 : u ∈ c2s.flatten := List.mem_flatten.2 ⟨c2, hc2, List.mem_of_getElem? hu⟩
    have m4 : u' ∈ c2s.flatten := List.mem_flatten.2 ⟨c2, hc2, List.mem_of_getElem? hu'⟩
    have k1 := apart_le hE w1 w2 dflt ixline (H1.lt m1) (H2.lt m3) n1
    have k2 := apart_le hE w1 w2 dflt ixline (H1.lt m2) (H2.lt m3) n2
    have k3 := apart_le hE w1 w2 dflt ixline (H1.lt m1) (H2.lt m4) n3
    have hD := C97_criterion_partial f hf E hE dflt ixline d1 d2 i1 i2 w1 w2 t.tn u.tn (H1.lt m1) (H2.lt m3)
    have hcrit : (geoS f ixline dmax).crit t u = dsrS f (crdOf rnd dflt ixline d1 i1.ns t.tn) (crdOf rnd dflt ixline d2 i2.ns u.tn) := by
      rw [← crit_same (dmax := dmax) hsame, ← H1.vals t m1, ← H2.vals u m3]
    rw [← H1.vals t m1, ← H2.vals u m3] at k1
    rw [← H1.vals t' m2, ← H2.vals u m3] at k2
    rw [← H1.vals t m1, ← H2.vals u' m4] at k3
    have q1 : IsSingle t.xs := by rw [H1.vals t m1]; exact isSingle_rnd _
    have q2 : IsSingle t'.xs := by rw [H1.vals t' m2]; exact isSingle_rnd _
    have q3 : IsSingle u.xs := by rw [H2.vals u m3]; exact isSingle_rnd _
    have q4 : IsSingle u'.xs := by rw [H2.vals u' m4]; exact isSingle_rnd _
    rw [← hcrit] at hD
    have hD' : |((geoS f ixline dmax).crit t u : ℝ) - distance d1 d2 i1 i2 t.tn u.tn| ≤
        3 * 2 ^ E + distance d1 d2 i1 i2 t.tn u.tn / 2 ^ 21 := hD
    rw [abs_le] at hD'
    have hle : (geoS f ixline dmax).crit t u ≤ (geoS f ixline dmax).dmax := by
      have : ((geoS f ixline dmax).crit t u : ℝ) ≤ dmax := by linarith [hD'.2]
      exact_mod_cast this
    obtain ⟨b, v, hm, hv⟩ := hp.found c1 hc1 c2 hc2 i j i' j' t u t' u' ht hu (rnd_le q3 k1.1) (rnd_le q1 k1.2) ht' hi
      (rnd_ge q2 (show t'.xs ≤ u.xs + dmax by linarith [k2.1])) hu' hj (rnd_ge q4 (show u'.xs ≤ t.xs + dmax by linarith [k3.2])) hle
    refine ⟨b, v, hm, ?_⟩
    obtain ⟨-, -, -, he, -⟩ := hreal _ b v hm
    have hv' : (v : ℝ) ≤ ((geoS f ixline dmax).crit t u : ℝ) := by exact_mod_cast hv
    have := (abs_le.1 he).1
    linarith [hD'.2]

/-- **C97** (the whole program, partial). On any number of processes, from any two files with coordinates of `2 ^ (E + 24)` at
most: in the outputs every trace of the first file occurs once at most; the two traces of a pair are within the limit of each
other and the criterion stored is theirs, both up to three times the spacing of floats and a relative error of `2 ^ -21`; and
a trace of the first file is there, with a partner that is not farther than any trace of the second file near to it up to twice
these errors, if both have a later trace near enough on their processes. Missing: the accuracy of the headers, which is
refuted, and the traces for which C48 and C88 are. -/
theorem C97_binning_partial (f : ℚ → ℚ) (hf : GoodRoot f) (E : ℤ) (hE : -60 ≤ E) (dmax : ℚ) (hd0 : 0 ≤ dmax)
    (hd1 : dmax ≤ 2 ^ 31 - 1) (cvd : Conv ℚ ℚ) (hcv : ∀ v, cvd.toF v = v) (srt : List XRec → List XRec) (hsrt : IsSort xLess srt)
    (idx : List Nat → List Nat) (hidx : IsSortIndex idx) (sched : List (Put ℚ) → List (Put ℚ)) (hsch : ∀ l, (sched l).Perm l)
    (dflt : Crd ℚ) (ixline printDsr : Bool) (P : Nat) (hP : 0 < P) (d1 d2 : Disk) (i1 i2 : Info) (hs1 : Source d1 i1)
    (hs2 : Source d2 i2) (hn1 : i1.nt ≤ 6100805 * P) (hn2 : i2.nt ≤ 6100805 * P)
    (hz : 3600 + i1.nt * (240 + 4 * i2.ns) < 2 ^ 63) (w1 : Within E d1 i1) (w2 : Within E d2 i2) (out1 out2 : Disk) :
    ∃ n c1s c2s, Held rnd dflt ixline P d1 i1 c1s ∧ Held rnd dflt ixline P d2 i2 c2s ∧
      ∀ fuel o1 o2, n ≤ fuel →
        binning (geoS f ixline dmax) rnd cvd srt fuel idx sched dflt ixline printDsr P d1 d2 out1 out2 = .ok (o1, o2) →
        ∃ pairs : List (Nat × Nat × ℚ), (pairs.map Prod.fst).Nodup ∧
          (∀ a b v, (a, b, v) ∈ pairs → a < i1.nt ∧ b < i2.nt ∧ (ixline = true → SameLines d1 d2 i1 i2 a b) ∧
            |(v : ℝ) - distance d1 d2 i1 i2 a b| ≤ 3 * 2 ^ E + distance d1 d2 i1 i2 a b / 2 ^ 21 ∧
            distance d1 d2 i1 i2 a b * (1 - 1 / 2 ^ 21) ≤ dmax + 3 * 2 ^ E) ∧
          (∀ c1 ∈ c1s, ∀ c2 ∈ c2s, ∀ (i j i' j' : Nat) t u t' u', c1[i]? = some t → c2[j]? = some u →
            apart d1 d2 i1 i2 t.tn u.tn + 2 * 2 ^ E ≤ dmax → c1[i']? = some t' → i < i' →
            apart d1 d2 i1 i2 t'.tn u.tn + 2 * 2 ^ E ≤ dmax → c2[j']? = some u' → j < j' →
            apart d1 d2 i1 i2 t.tn u'.tn + 2 * 2 ^ E ≤ dmax → (ixline = true → SameLines d1 d2 i1 i2 t.tn u.tn) →
            distance d1 d2 i1 i2 t.tn u.tn * (1 + 1 / 2 ^ 21) + 3 * 2 ^ E ≤ dmax →
            ∃ b v, (t.tn, b, v) ∈ pairs ∧
              distance d1 d2 i1 i2 t.tn b * (1 - 1 / 2 ^ 21) ≤ distance d1 d2 i1 i2 t.tn u.tn * (1 + 1 / 2 ^ 21) + 6 * 2 ^ E) ∧
          openRead o1 = .ok ⟨i1.ns, pairs.length, i1.inc, 5#16, shown title⟩ ∧
          openRead o2 = .ok ⟨i2.ns, pairs.length, i2.inc, 5#16, shown title⟩ ∧
          ∀ j a b v, pairs[j]? = some (a, b, v) →
            Copied dbl printDsr i1.ns d1 a o1 j v ∧ Copied dbl printDsr i2.ns d2 b o2 j v := by
  obtain ⟨n, c1s, c2s, H1, H2, -, h⟩ := C88_binning_partial (geoS f ixline dmax) (fun _ => rfl) (fun _ => rfl)
    (fun x y hxy => rnd_mono (by linarith)) (fun x y hxy => rnd_mono (by linarith)) rnd (fun x y hxy => rnd_mono hxy) cvd srt hsrt
    idx hidx sched hsch dflt ixline printDsr P hP d1 d2 i1 i2 hs1 hs2 hn1 hn2 (fun k _ => hi_below hd0 hd1 dflt d1 _ k)
    (fun k _ => hi_below hd0 hd1 dflt d2 _ k) (fun _ t u hc => by
      rw [hcv, abs_of_nonneg (crit_nonneg hf t u)]
      exact le_trans hc hd1) hz out1 out2
  refine ⟨n, c1s, c2s, H1, H2, fun fuel o1 o2 hfuel hrun => ?_⟩
  obtain ⟨pairs, hp, e1, e2, hcop⟩ := h fuel o1 o2 hfuel hrun
  have hch := chosen_of hf hE hd1 w1 w2 H1 H2 hp
  refine ⟨pairs, hch.once, hch.near, hch.best, e1, e2, ?_⟩
  · intro j a b v hj
    have := hcop j a b v hj
    rwa [hcv] at this

/-! ### What single precision cannot tell apart -/

theorem blur {s : BitVec 16} {n : BitVec 32} {m : ℤ} (h1 : 2 ^ 23 < |m|) (h2 : |m| < 2 ^ 24)
    (h : |unit s * n.toInt - m / 2| ≤ 24 / 100) : rnd (decode s n) = m / 2 := by
  have he := decode_err s n
  generalize decode s n = y at *
  generalize unit s * (n.toInt : ℚ) = x at *
  have h1' : (2 : ℚ) ^ 23 + 1 ≤ |(m : ℚ)| := by
    have : 2 ^ 23 + 1 ≤ |m| := by omega
    exact_mod_cast this
  have h2' : |(m : ℚ)| ≤ 2 ^ 24 - 1 := by
    have : |m| ≤ 2 ^ 24 - 1 := by omega
    exact_mod_cast this
  have hm2 : |(m : ℚ) / 2| = |(m : ℚ)| / 2 := by rw [abs_div]; norm_num
  have hx : |x| ≤ 2 ^ 24 := by
    have := abs_sub_abs_le_abs_sub x (m / 2)
    rw [hm2] at this
    norm_num at *
    linarith
  have hy : |y - m / 2| < 1 / 4 := by
    have := abs_sub_le y x (m / 2)
    norm_num at *
    linarith
  have hlo : (2 : ℚ) ^ 22 ≤ |y| := by
    have := abs_sub_abs_le_abs_sub ((m : ℚ) / 2) y
    rw [abs_sub_comm, hm2] at this
    norm_num at *
    linarith
  have hhi : |y| < (2 : ℚ) ^ 23 := by
    have := abs_sub_abs_le_abs_sub y ((m : ℚ) / 2)
    rw [hm2] at this
    norm_num at *
    linarith
  have := rnd_eval (x := y) m 22 (by norm_num) (by exact_mod_cast hlo) (by
      rw [show (22 : ℤ) + 1 = ((23 : ℕ) : ℤ) by norm_num, zpow_natCast]; exact hhi) (by
    have e : (2 : ℚ) ^ (22 - 23 : ℤ) = 1 / 2 := by norm_num [zpow_neg]
    rw [e]
    rw [abs_lt] at *
    constructor <;> linarith)
  rw [this]
  norm_num [zpow_neg]
  ring

theorem dsrS_self {f : ℚ → ℚ} (hf : GoodRoot f) {a b : Crd ℚ} (h1 : a.xs = b.xs) (h2 : a.ys = b.ys) (h3 : a.xr = b.xr)
    (h4 : a.yr = b.yr) : dsrS f a b = 0 := by
  have hz : hypS f 0 0 = 0 := by
    unfold hypS
    rw [mul_zero, rnd_zero, add_zero, rnd_zero, hf.zero]
  have e : sumS f a b.xs b.ys b.xr b.yr = 0 := by
    unfold sumS
    rw [h1, h2, h3, h4, sub_self, sub_self, sub_self, sub_self, rnd_zero, hz, add_zero, rnd_zero]
  have := dsrS_nonneg hf a b
  unfold dsrS at *
  rw [e] at *
  exact le_antisymm (min_le_left _ _) this

/-- Both traces are at the same place up to 24 cm in each coordinate, `m loc / 2`, which is between 4194304 and 8388608. -/
def Beside (d1 d2 : Disk) (ns1 ns2 a b : Nat) (m : Nat → ℤ) : Prop :=
  ∀ loc ∈ [73, 77, 81, 85], 2 ^ 23 < |m loc| ∧ |m loc| < 2 ^ 24 ∧ |meant d1 ns1 a loc - m loc / 2| ≤ 24 / 100 ∧
    |meant d2 ns2 b loc - m loc / 2| ≤ 24 / 100

/-- **C97** is refuted for coordinates between 4194304 and 8388608 m, as northings are: the criterion of two traces is zero as
soon as each coordinate is within 24 cm of the same multiple of half a metre, though sources and receivers may be
67 cm apart each. -/
theorem C97_zero_refuted (f : ℚ → ℚ) (hf : GoodRoot f) (dflt : Crd ℚ) (ixline : Bool) (d1 d2 : Disk) (ns1 ns2 a b : Nat)
    (m : Nat → ℤ) (h : Beside d1 d2 ns1 ns2 a b m) :
    dsrS f (crdOf rnd dflt ixline d1 ns1 a) (crdOf rnd dflt ixline d2 ns2 b) = 0 := by
  have key : ∀ loc ∈ [73, 77, 81, 85], rnd (decode (be16 d1 ns1 a 71) (be32 d1 ns1 a loc)) =
      rnd (decode (be16 d2 ns2 b 71) (be32 d2 ns2 b loc)) := by
    intro loc hl
    obtain ⟨h1, h2, h3, h4⟩ := h loc hl
    rw [blur h1 h2 h3, blur h1 h2 h4]
  exact dsrS_self hf (key 73 (by simp)) (key 77 (by simp)) (key 81 (by simp)) (key 85 (by simp))

theorem scan_keep {f : ℚ → ℚ} (hf : GoodRoot f) {ixline : Bool} {dmax : ℚ} (t : Crd ℚ) (n : Nat) (c : List (Crd ℚ)) :
    scan (geoS f ixline dmax) t (n, 0) c = (n, 0) := by
  unfold scan
  induction c with
  | nil => rfl
  | cons u c ih =>
    rw [List.foldl_cons]
    have h := crit_nonneg hf (ixline := ixline) (dmax := dmax) t u
    simp only [if_neg (not_lt.2 h), min_eq_right h]
    exact ih

theorem rounds_keep {f : ℚ → ℚ} (hf : GoodRoot f) {ixline : Bool} {dmax : ℚ} (c1 : List (Crd ℚ)) (i n : Nat) (t : Crd ℚ)
    (ht : c1[i]? = some t) : ∀ (c2s : List (List (Crd ℚ))) (st st' : List (Nat × ℚ)), st[i]? = some (n, 0) →
      rounds (geoS f ixline dmax) c1 c2s st = .ok st' → st'[i]? = some (n, 0) := by
  intro c2s
  induction c2s with
  | nil =>
    intro st st' hs h
    rw [rounds, Res.ok.injEq] at h
    rw [← h]; exact hs
  | cons c2 c2s ih =>
    intro st st' hs h
    unfold rounds at h
    obtain ⟨a, -, h⟩ := of_bind h
    cases a with
    | false =>
      simp only [Bool.false_eq_true, if_false] at h
      exact ih st st' hs h
    | true =>
      simp only [if_true] at h
      obtain ⟨st1, h2, h3⟩ := of_bind h
      refine ih st1 st' ?_ h3
      obtain ⟨ls, le, rs, re, -, -, hg⟩ := update_get _ h2
      rw [hg i t _ ht hs, scan_keep hf]
      simp

/-- **C97** is refuted: a trace of the first file is given the first trace of the second file on its process as the partner,
with criterion zero, if the two are beside each other, even if another trace of the second file is exactly in its place. -/
theorem C97_partner_refuted (f : ℚ → ℚ) (hf : GoodRoot f) (dmax : ℚ) (dflt : Crd ℚ) (ixline : Bool) (d1 d2 : Disk)
    (i1 i2 : Info) (a b : Nat) (m : Nat → ℤ) (hb : Beside d1 d2 i1.ns i2.ns a b m)
    (hl : ixline = true → SameLines d1 d2 i1 i2 a b) (r : Nat) (c1 : List (Crd ℚ)) (c2s : List (List (Crd ℚ)))
    (rest : List (Crd ℚ)) (hr : c2s[r]? = some (crdOf rnd dflt ixline d2 i2.ns b :: rest)) (i : Nat)
    (ht : c1[i]? = some (crdOf rnd dflt ixline d1 i1.ns a)) (st : List (Nat × ℚ))
    (h : calc4DBin (geoS f ixline dmax) r c1 c2s = .ok st) : st[i]? = some (b, 0) := by
  unfold calc4DBin at h
  rw [hr, Option.bind_some, List.head?_cons] at h
  refine rounds_keep hf c1 i b _ ht c2s _ st ?_ h
  rw [init_get _ ht, crit_same hl, C97_zero_refuted f hf dflt ixline d1 d2 i1.ns i2.ns a b m hb]
  rfl

/-! ### Cases -/

open Verif.Endian

/-- The bytes of a header with scalar -100 and all coordinates 6000000 m, or with the y coordinates 24 cm more. -/
def northByte (w : Bool) (x : Nat) : Byte :=
  if x = 70 then 0xff#8 else if x = 71 then 0x9c#8 else if x < 72 then 0#8
  else if x < 88 then (if x % 4 = 0 then 0x23#8 else if x % 4 = 1 then 0xc3#8 else if x % 4 = 2 then 0x46#8
    else if w && (x == 79 || x == 87) then 0x18#8 else 0#8)
  else 0#8

/-- A file of such traces. -/
def north (n : Nat) (v : Nat → Bool) : Disk := recFile n fun x => northByte (v (x / 244)) (x % 244)

theorem north_byte (n : Nat) (v : Nat → Bool) (k x : Nat) (hx : x < 244) :
    (north n v).byte (3600 + k * (240 + 4 * 1) + x) = northByte (v k) x := by
  show (if 3600 + k * (240 + 4 * 1) + x < 3600 then _ else northByte (v ((3600 + k * (240 + 4 * 1) + x - 3600) / 244)) ((3600 + k * (240 + 4 * 1) + x - 3600) % 244)) = _
  rw [if_neg (by omega), show (3600 + k * (240 + 4 * 1) + x - 3600) % 244 = x by omega,
    show (3600 + k * (240 + 4 * 1) + x - 3600) / 244 = k by omega]

theorem north_scal (n : Nat) (v : Nat → Bool) (k : Nat) : be16 (north n v) 1 k 71 = 0xff9c#16 := by
  unfold be16
  rw [north_byte _ _ _ _ (by omega), north_byte _ _ _ _ (by omega)]
  cases v k <;> decide

/-- The y coordinates of the traces that are off. -/
def northY (w : Bool) (loc : Nat) : ℤ := if w && (loc == 77 || loc == 85) then 600000024 else 600000000

theorem north_crd (n : Nat) (v : Nat → Bool) (k loc : Nat) (hl : loc ∈ [73, 77, 81, 85]) :
    (be32 (north n v) 1 k loc).toInt = northY (v k) loc := by
  have hlt : loc ≤ 200 ∧ 0 < loc := by
    simp only [List.mem_cons, List.not_mem_nil, or_false] at hl; omega
  unfold be32
  rw [north_byte _ _ _ _ (by omega), north_byte _ _ _ _ (by omega), north_byte _ _ _ _ (by omega), north_byte _ _ _ _ (by omega)]
  simp only [List.mem_cons, List.not_mem_nil, or_false] at hl
  cases v k <;> rcases hl with rfl | rfl | rfl | rfl <;> decide

theorem north_meant (n : Nat) (v : Nat → Bool) (k loc : Nat) (hl : loc ∈ [73, 77, 81, 85]) :
    meant (north n v) 1 k loc = 1 / 100 * northY (v k) loc := by
  unfold meant
  rw [north_scal, north_crd n v k loc hl]
  congr 1

/-- The first file: traces at 6000000 m. -/
def exOld : Disk := north 3 fun _ => false

/-- The second file: the first trace 24 cm to the north of that, the others at the same place. -/
def exNew : Disk := north 3 fun k => k == 0

theorem ex_beside : Beside exOld exNew 1 1 0 0 fun _ => 12000000 := by
  intro loc hl
  unfold exOld exNew
  rw [north_meant _ _ _ _ hl, north_meant _ _ _ _ hl]
  refine ⟨by norm_num, by norm_num, ?_, ?_⟩
  · show |1 / 100 * ((600000000 : ℤ) : ℚ) - ((12000000 : ℤ) : ℚ) / 2| ≤ 24 / 100
    norm_num
  · show |1 / 100 * (northY true loc : ℚ) - ((12000000 : ℤ) : ℚ) / 2| ≤ 24 / 100
    unfold northY
    split_ifs <;> norm_num

/-- The exact distances of the first trace from the first two traces of the second file. -/
example (t : List Nat) (i : ℚ) : distance exOld exNew ⟨1, 3, i, 5#16, t⟩ ⟨1, 3, i, 5#16, t⟩ 0 0 = 48 / 100 ∧
    distance exOld exNew ⟨1, 3, i, 5#16, t⟩ ⟨1, 3, i, 5#16, t⟩ 0 1 = 0 := by
  have h0 : ∀ x : ℝ, hyp 0 x = |x| := fun x => by unfold hyp; rw [mul_zero, zero_add, Real.sqrt_mul_self_eq_abs]
  unfold distance place dsr exOld exNew
  dsimp only
  rw [north_meant _ _ _ 73 (by simp), north_meant _ _ _ 77 (by simp), north_meant _ _ _ 81 (by simp), north_meant _ _ _ 85 (by simp),
    north_meant _ _ _ 73 (by simp), north_meant _ _ _ 77 (by simp), north_meant _ _ _ 81 (by simp), north_meant _ _ _ 85 (by simp),
    north_meant _ _ _ 73 (by simp), north_meant _ _ _ 77 (by simp), north_meant _ _ _ 81 (by simp), north_meant _ _ _ 85 (by simp)]
  norm_num [northY, h0]

theorem north_xs (dflt : Crd ℚ) (ixline : Bool) (n : Nat) (v : Nat → Bool) (k : Nat) :
    (crdOf rnd dflt ixline (north n v) 1 k).xs = 6000000 := by
  show rnd (decode _ _) = _
  rw [blur (m := 12000000) (by norm_num) (by norm_num)]
  · norm_num
  · have := north_meant n v k 73 (by simp)
    unfold meant at this
    rw [this]
    show |1 / 100 * (northY (v k) 73 : ℚ) - _| ≤ _
    rw [show northY (v k) 73 = 600000000 by cases v k <;> rfl]
    norm_num

theorem north_source (n : Nat) (v : Nat → Bool) (hn : 3600 + n * (240 + 4 * 1) < 2 ^ 63) :
    ∃ t, Source (north n v) ⟨1, n, exInc false, 5#16, t⟩ := by
  obtain ⟨t, ht⟩ := recFile_open (n := n) (fun x => northByte (v (x / 244)) (x % 244)) hn
  exact ⟨t, ht, hn, Nat.one_pos, show 1 ≤ 32767 by decide, show 5#16 ≠ 1#16 by decide, exInc_pos⟩

theorem north_within (n : Nat) (v : Nat → Bool) (i : Info) (h : i.ns = 1) : Within (-1) (north n v) i := by
  intro k _ loc hl
  rw [h, north_meant _ _ _ _ hl]
  have e : (2 : ℚ) ^ (-1 + 24 : ℤ) = 8388608 := by
    rw [show (-1 + 24 : ℤ) = ((23 : ℕ) : ℤ) by norm_num, zpow_natCast]; norm_num
  rw [e]
  unfold northY
  split_ifs <;> norm_num

theorem north_hi : (6000000 : ℚ) ≤ rnd (6000000 + 10) ∧ rnd (6000000 - 10) ≤ 6000000 :=
  have h : IsSingle (6000000 : ℚ) := by exact_mod_cast isSingle_int (n := 6000000) (by norm_num)
  ⟨rnd_ge h (by norm_num), rnd_le h (by norm_num)⟩

/-- The first trace of the second file is taken, which is not the one at the same place. -/
example (f : ℚ → ℚ) (hf : GoodRoot f) (dflt : Crd ℚ) : ∃ st,
    calc4DBin (geoS f false 10) 0 [crdOf rnd dflt false exOld 1 0, crdOf rnd dflt false exOld 1 1]
      [[crdOf rnd dflt false exNew 1 0, crdOf rnd dflt false exNew 1 1, crdOf rnd dflt false exNew 1 2]] = .ok st ∧
    st[0]? = some (0, 0) := by
  have hx := north_xs dflt false
  have hhi := north_hi.1
  obtain ⟨st, h⟩ := C48_defined_partial (geoS f false 10) (fun x y h => rnd_mono (by linarith)) 0
    [crdOf rnd dflt false exOld 1 0, crdOf rnd dflt false exOld 1 1]
    [[crdOf rnd dflt false exNew 1 0, crdOf rnd dflt false exNew 1 1, crdOf rnd dflt false exNew 1 2]] (by simp) (by
      intro t ht
      simp only [List.mem_cons, List.not_mem_nil, or_false] at ht
      rcases ht with rfl | rfl <;> exact hi_below (by norm_num) (by norm_num) _ _ _ _) _ _ rfl rfl (by
      intro c hc
      rw [List.mem_singleton] at hc
      subst hc
      refine ⟨?_, _, _, rfl, rfl, ?_, ?_⟩
      · have hp : ∀ a b, (crdOf rnd dflt false exNew 1 a).xs ≤ (crdOf rnd dflt false exNew 1 b).xs := fun a b => by
          unfold exNew; rw [hx, hx]
        simp [geoS, hp]
      · show (crdOf rnd dflt false exNew 1 1).xs ≤ rnd ((crdOf rnd dflt false exOld 1 1).xs + 10)
        unfold exNew exOld
        rw [hx, hx]
        exact hhi
      · show (crdOf rnd dflt false exOld 1 0).xs ≤ rnd ((crdOf rnd dflt false exNew 1 0).xs + 10)
        unfold exNew exOld
        rw [hx, hx]
        exact hhi)
  exact ⟨st, h, C97_partner_refuted f hf 10 dflt false exOld exNew ⟨1, 3, 0, 5#16, []⟩ ⟨1, 3, 0, 5#16, []⟩ 0 0 _ ex_beside (by simp) 0 _ _
    _ rfl 0 rfl st h⟩

/-- The whole program on these files: it ends, and all pairs are within the limit but for a metre and a half. -/
example (f : ℚ → ℚ) (hf : GoodRoot f) (dflt : Crd ℚ) : ∃ n, ∀ fuel, n ≤ fuel → ∃ o1 o2, ∃ pairs : List (Nat × Nat × ℚ),
    binning (geoS f true 10) rnd exConvR (keySort xLess) fuel insIndex id dflt true true 1 exOld exNew ⟨0, fun _ => 0#8⟩
      ⟨0, fun _ => 0#8⟩ = .ok (o1, o2) ∧ openRead o1 = .ok ⟨1, pairs.length, exInc false, 5#16, shown title⟩ ∧
    ∀ a b v, (a, b, v) ∈ pairs → ∀ t1 t2, distance exOld exNew ⟨1, 3, exInc false, 5#16, t1⟩ ⟨1, 3, exInc false, 5#16, t2⟩ a b ≤ 12 := by
  obtain ⟨t1, s1⟩ := north_source 3 (fun _ => false) (by decide)
  obtain ⟨t2, s2⟩ := north_source 3 (fun k => k == 0) (by decide)
  obtain ⟨h1, h2⟩ := north_hi
  have hx := north_xs dflt true
  obtain ⟨n, h⟩ := C88_ends_partial (geoS f true 10) (fun _ => rfl) (fun _ => rfl) (fun x y hxy => rnd_mono (by linarith))
    (fun x y hxy => rnd_mono (by linarith)) rnd (fun x y hxy => rnd_mono hxy) exConvR (keySort xLess) x_sorts insIndex insIndex_sorts id
    (fun l => List.Perm.refl l) dflt true true 1 (by omega) _ _ _ _ s1 s2 (show 3 ≤ 6100805 * 1 by decide) (show 3 ≤ 6100805 * 1 by decide)
    (fun k _ => hi_below (by norm_num) (by norm_num) dflt _ _ k) (fun k _ => hi_below (by norm_num) (by norm_num) dflt _ _ k)
    (fun _ t u hc => by
      show |(geoS f true 10).crit t u| ≤ _
      rw [abs_of_nonneg (crit_nonneg hf t u)]
      exact le_trans hc (show (10 : ℚ) ≤ 2 ^ 31 - 1 by norm_num)) (show 3600 + 3 * (240 + 4 * 1) < 2 ^ 63 by decide)
    (fun a b _ _ => by
      show rnd ((crdOf rnd dflt true _ 1 a).xs - 10) ≤ (crdOf rnd dflt true _ 1 b).xs ∧ (crdOf rnd dflt true _ 1 b).xs ≤ rnd ((crdOf rnd dflt true _ 1 a).xs + 10) ∧
        rnd ((crdOf rnd dflt true _ 1 b).xs - 10) ≤ (crdOf rnd dflt true _ 1 a).xs ∧ (crdOf rnd dflt true _ 1 a).xs ≤ rnd ((crdOf rnd dflt true _ 1 b).xs + 10)
      rw [hx, hx]
      exact ⟨h2, h1, h2, h1⟩) (show 1 ≤ 3 by decide) (show 2 * 1 ≤ 3 by decide) ⟨0, fun _ => 0#8⟩ ⟨0, fun _ => 0#8⟩
  obtain ⟨m, c1s, c2s, -, -, h'⟩ := C97_binning_partial f hf (-1) (by norm_num) 10 (by norm_num) (by norm_num) exConvR (fun _ => rfl) (keySort xLess)
    x_sorts insIndex insIndex_sorts id (fun l => List.Perm.refl l) dflt true true 1 (by omega) _ _ _ _ s1 s2
    (show 3 ≤ 6100805 * 1 by decide) (show 3 ≤ 6100805 * 1 by decide) (show 3600 + 3 * (240 + 4 * 1) < 2 ^ 63 by decide)
    (north_within 3 _ _ rfl) (north_within 3 _ _ rfl) ⟨0, fun _ => 0#8⟩ ⟨0, fun _ => 0#8⟩
  refine ⟨max n m, fun fuel hf => ?_⟩
  obtain ⟨⟨o1, o2⟩, ho⟩ := h fuel (le_trans (le_max_left _ _) hf)
  obtain ⟨pairs, -, e3, -, e1, -⟩ := h' fuel o1 o2 (le_trans (le_max_right _ _) hf) ho
  refine ⟨o1, o2, pairs, ho, e1, fun a b v hm t1' t2' => ?_⟩
  obtain ⟨-, -, -, -, e5⟩ := e3 a b v hm
  show distance exOld exNew ⟨1, 3, exInc false, 5#16, t1⟩ ⟨1, 3, exInc false, 5#16, t2⟩ a b ≤ 12
  unfold exOld exNew
  generalize distance _ _ _ _ _ _ = D at *
  rw [zpow_neg] at e5
  norm_num at e5
  linarith

end Verif.FourDSingle
