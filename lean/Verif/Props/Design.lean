import Verif.Signal.DesignLemmas
import Mathlib.Analysis.SpecialFunctions.Pow.Complex
import Mathlib.Tactic.LinearCombination

/-!
C65 (response of the designed filter), C66 (stability).
-/

namespace Verif.Signal

open Polynomial Finset

/-! ### The bilinear map -/

theorem four_sub_ne {x : ℂ} (hx : x.re < 0) : (4 : ℂ) - x ≠ 0 := by
  intro h
  have := congrArg Complex.re h
  simp at this
  linarith

theorem den_factor {x : ℂ} (hx : x.re < 0) (w : ℂ) : 1 - filDiv x * w = (4 * (1 - w) - x * (1 + w)) / (4 - x) := by
  have := four_sub_ne hx
  unfold filDiv
  field_simp
  ring

theorem filDiv_conj (x : ℂ) : (starRingEnd ℂ) (filDiv x) = filDiv ((starRingEnd ℂ) x) := by
  unfold filDiv
  have h4 : (starRingEnd ℂ) 4 = 4 := map_ofNat _ 4
  rw [map_div₀, map_add, map_sub, h4]

/-- The left half plane goes into the unit disc. -/
theorem filDiv_norm {x : ℂ} (hx : x.re < 0) : ‖filDiv x‖ < 1 := by
  unfold filDiv
  have h4 := four_sub_ne hx
  rw [norm_div, div_lt_one (norm_pos_iff.mpr h4)]
  apply lt_of_pow_lt_pow_left₀ 2 (norm_nonneg _)
  rw [← Complex.normSq_eq_norm_sq, ← Complex.normSq_eq_norm_sq, Complex.normSq_apply, Complex.normSq_apply]
  simp
  nlinarith

theorem stable_factor {x w : ℂ} (hx : x.re < 0) (hw : ‖w‖ ≤ 1) : 1 - filDiv x * w ≠ 0 := by
  intro h
  have h1 : filDiv x * w = 1 := (sub_eq_zero.mp h).symm
  have h2 := congrArg norm h1
  rw [norm_mul, norm_one] at h2
  have := filDiv_norm hx
  nlinarith [norm_nonneg (filDiv x), norm_nonneg w]

/-! ### Real polynomials -/

theorem realPoly_reflect (n : Nat) (r : Nat → ℂ) (h : ∀ i, i < n → (starRingEnd ℂ) (r i) = r (n - 1 - i)) :
    RealPoly (fromRoots n r) := by
  unfold RealPoly fromRoots
  rw [Polynomial.map_prod, ← prod_range_reflect]
  refine prod_congr rfl fun i hi => ?_
  have hi := mem_range.mp hi
  rw [Polynomial.map_sub, map_X, map_C, h _ (by omega), show n - 1 - (n - 1 - i) = i by omega]

/-- Roots in pairs, the pairs going into each other. -/
theorem realPoly_pairs (N : Nat) (f g : Nat → ℂ)
    (h : ∀ i, i < N → ((starRingEnd ℂ) (f i) = f (N - 1 - i) ∧ (starRingEnd ℂ) (g i) = g (N - 1 - i)) ∨
      ((starRingEnd ℂ) (f i) = g (N - 1 - i) ∧ (starRingEnd ℂ) (g i) = f (N - 1 - i))) :
    RealPoly (fromRoots (2 * N) (halves N f g)) := by
  unfold RealPoly fromRoots
  rw [halves_prod N f g (fun z => X - C z), Polynomial.map_prod, ← prod_range_reflect]
  refine prod_congr rfl fun i hi => ?_
  have hi := mem_range.mp hi
  rw [Polynomial.map_mul, Polynomial.map_sub, Polynomial.map_sub, map_X, map_C, map_C]
  rcases h (N - 1 - i) (by omega) with ⟨h1, h2⟩ | ⟨h1, h2⟩
  · rw [h1, h2, show N - 1 - (N - 1 - i) = i by omega]
  · rw [h1, h2, show N - 1 - (N - 1 - i) = i by omega, mul_comm]

theorem real_of_conj {z : ℂ} (h : (starRingEnd ℂ) z = z) : ((z.re : ℝ) : ℂ) = z := Complex.conj_eq_iff_re.mp h

theorem prod_real (n : Nat) (F : Nat → ℂ) (h : ∀ i, i < n → (starRingEnd ℂ) (F i) = F (n - 1 - i)) :
    (((∏ i ∈ range n, F i).re : ℝ) : ℂ) = ∏ i ∈ range n, F i := by
  apply real_of_conj
  rw [map_prod, ← prod_range_reflect]
  refine prod_congr rfl fun i hi => ?_
  have hi := mem_range.mp hi
  rw [h _ (by omega), show n - 1 - (n - 1 - i) = i by omega]

/-! ### The last part of the design -/

/-- The coefficients as tables. -/
noncomputable def tables (n : Nat) (z p : Nat → ℂ) (k : ℝ) : Res (List ℝ × List ℝ) :=
  .ok (((List.range (n + 1)).map fun j => ((fromRoots n z).coeff j).re).map (· * k),
    (List.range (n + 1)).map fun j => ((fromRoots n p).coeff (n - j)).re)

theorem finish (n : Nat) (hn : 1 ≤ n) (z p : Nat → ℂ) (k : ℝ) :
    (expandPoly Complex.re ((List.range n).map z) >>= fun numer =>
      expandPoly Complex.re ((List.range n).map p) >>= fun denom =>
        forRange (swapStep n) 0 ((n + 1) / 2) denom >>= fun denom => Res.ok (numer.map (· * k), denom)) =
      tables n z p k := by
  unfold tables
  rw [expand_tab n hn, Res.ok_bind, expand_tab n hn, Res.ok_bind, swap_tab, Res.ok_bind]

/-- What the design delivers: polynomials with the values `num` and `den`. -/
structure Delivers (r : Res (List ℝ × List ℝ)) (n : Nat) (num den : ℂ → ℂ) : Prop where
  ex : ∃ b a, r = .ok (b, a) ∧ b.length = n + 1 ∧ a.length = n + 1 ∧ a.getD 0 0 = 1 ∧
    (∀ w, polyAt b w = num w) ∧ ∀ w, polyAt a w = den w

theorem delivers (n : Nat) (z p : Nat → ℂ) (k : ℝ) (hz : RealPoly (fromRoots n z))
    (hp : RealPoly (fromRoots n p)) :
    Delivers (tables n z p k) n
      (fun w => k * ∏ i ∈ range n, (w - z i)) fun w => ∏ i ∈ range n, (1 - p i * w) := by
  refine ⟨_, _, rfl, by simp, by simp, ?_, fun w => numer_at n z hz k w, fun w => denom_at n p hp w⟩
  simp [fromRoots_monic, List.getD_eq_getElem?_getD]

theorem Delivers.congr {r : Res (List ℝ × List ℝ)} {n : Nat} {num num' den den' : ℂ → ℂ} (h : Delivers r n num den)
    (hn : ∀ w, num w = num' w) (hd : ∀ w, den w = den' w) : Delivers r n num' den' := by
  rw [← funext hn, ← funext hd]; exact h

theorem low_delivers (sq : ℂ → ℂ) (N : Nat) (hN : 1 ≤ N) (fs c : ℝ) :
    Delivers (makeFilter sq .lowpass N fs c 0) N
      (fun w => ((warp fs c ^ N / (∏ i ∈ range N, (4 - pole N i * warp fs c)).re : ℝ) : ℂ) * ∏ _i ∈ range N, (w - -1))
      fun w => ∏ i ∈ range N, (1 - filDiv (pole N i * warp fs c) * w) := by
  have h : makeFilter sq .lowpass N fs c 0 = tables N (fun _ => -1) (fun i => filDiv (pole N i * warp fs c))
      (warp fs c ^ N / (∏ i ∈ range N, (4 - pole N i * warp fs c)).re) := by
    unfold makeFilter
    simp only [↓reduceIte]
    rw [poles_tab N N le_rfl, Res.ok_bind, replicate_tab,
      tab_congr (h := pole N) (fun k hk => if_pos hk), lowpass_tab, Res.ok_bind]
    exact finish N hN _ _ _
  rw [h]
  refine delivers N _ _ _ ?_ ?_
  · exact realPoly_reflect _ _ fun i _ => by simp
  · refine realPoly_reflect _ _ fun i hi => ?_
    rw [filDiv_conj, map_mul, pole_conj N i hi, Complex.conj_ofReal]

theorem high_delivers (sq : ℂ → ℂ) (N : Nat) (hN : 1 ≤ N) (fs c : ℝ) :
    Delivers (makeFilter sq .highpass N fs c 0) N
      (fun w => ((1 / (∏ i ∈ range N, -pole N i).re * (4 ^ N / (∏ i ∈ range N, (4 - warp fs c / pole N i)).re) : ℝ) : ℂ) *
        ∏ _i ∈ range N, (w - 1))
      fun w => ∏ i ∈ range N, (1 - filDiv (warp fs c / pole N i) * w) := by
  have h : makeFilter sq .highpass N fs c 0 = tables N (fun _ => 1) (fun i => filDiv (warp fs c / pole N i))
      (1 / (∏ i ∈ range N, -pole N i).re * (4 ^ N / (∏ i ∈ range N, (4 - warp fs c / pole N i)).re)) := by
    unfold makeFilter
    simp only [↓reduceIte]
    rw [poles_tab N N le_rfl, Res.ok_bind, replicate_tab,
      tab_congr (h := pole N) (fun k hk => if_pos hk), highpass_tab, Res.ok_bind]
    exact finish N hN _ _ _
  rw [h]
  refine delivers N _ _ _ ?_ ?_
  · exact realPoly_reflect _ _ fun i _ => by simp
  · refine realPoly_reflect _ _ fun i hi => ?_
    rw [filDiv_conj, map_div₀, pole_conj N i hi, Complex.conj_ofReal]

/-- The two roots that the band filters make of `a`. -/
noncomputable def up (sq : ℂ → ℂ) (l : ℝ) (a : ℂ) : ℂ := a + sq (a * a - l)
/-- The other one. -/
noncomputable def dn (sq : ℂ → ℂ) (l : ℝ) (a : ℂ) : ℂ := a - sq (a * a - l)

theorem pair_conj (sq : ℂ → ℂ) (hsq : ∀ z, sq z ^ 2 = z) (l : ℝ) (a : ℂ) :
    ((starRingEnd ℂ) (up sq l a) = up sq l ((starRingEnd ℂ) a) ∧ (starRingEnd ℂ) (dn sq l a) = dn sq l ((starRingEnd ℂ) a)) ∨
    ((starRingEnd ℂ) (up sq l a) = dn sq l ((starRingEnd ℂ) a) ∧ (starRingEnd ℂ) (dn sq l a) = up sq l ((starRingEnd ℂ) a)) := by
  unfold up dn
  rw [map_add, map_sub]
  generalize hb : (starRingEnd ℂ) a = b
  have h1 : ((starRingEnd ℂ) (sq (a * a - l))) ^ 2 = (sq (b * b - l)) ^ 2 := by
    rw [← map_pow, hsq, hsq, map_sub, map_mul, hb, Complex.conj_ofReal]
  rcases sq_eq_sq_iff_eq_or_eq_neg.mp h1 with h | h
  · left; rw [h]; exact ⟨rfl, rfl⟩
  · right; rw [h]; constructor <;> ring

theorem band_delivers (sq : ℂ → ℂ) (hsq : ∀ z, sq z ^ 2 = z) (N : Nat) (hN : 1 ≤ N) (fs c1 c2 : ℝ) (h2 : c2 ≠ 0) :
    let a := fun i => pole N i * (((warp fs c2 - warp fs c1) / 2 : ℝ) : ℂ)
    let l := warp fs c1 * warp fs c2
    let Q := ∏ i ∈ range N, ((4 - up sq l (a i)) * (4 - dn sq l (a i)))
    Delivers (makeFilter sq .bandpass N fs c1 c2) (2 * N)
      (fun w => (((warp fs c2 - warp fs c1) ^ N * 4 ^ N * Q.re / Complex.normSq Q : ℝ) : ℂ) *
        ∏ _i ∈ range N, ((w - 1) * (w - -1)))
      fun w => ∏ i ∈ range N, ((1 - filDiv (up sq l (a i)) * w) * (1 - filDiv (dn sq l (a i)) * w)) := by
  intro a l Q
  have hQ : Q = ∏ i ∈ range (2 * N), (4 - halves N (fun i => up sq l (a i)) (fun i => dn sq l (a i)) i) :=
    (halves_prod N _ _ (fun z => 4 - z)).symm
  have hfil : ∀ k, filDiv (halves N (fun i => up sq l (a i)) (fun i => dn sq l (a i)) k) =
      halves N (fun i => filDiv (up sq l (a i))) (fun i => filDiv (dn sq l (a i))) k := by
    intro k; unfold halves; split <;> rfl
  have h : makeFilter sq .bandpass N fs c1 c2 = tables (2 * N) (halves N (fun _ => 1) fun _ => -1)
      (fun k => filDiv (halves N (fun i => up sq l (a i)) (fun i => dn sq l (a i)) k))
      ((warp fs c2 - warp fs c1) ^ N * 4 ^ N * Q.re / Complex.normSq Q) := by
    unfold makeFilter
    simp only [if_neg h2]
    rw [Nat.mul_comm N 2, poles_tab N (2 * N) (by omega), Res.ok_bind, replicate_tab]
    unfold bandpass
    rw [band_tab, Res.ok_bind]
    rw [tab_congr (g := halves N (fun i => (if i < N then pole N i else 0) * (((warp fs c2 - warp fs c1) / 2 : ℝ) : ℂ) +
        sq ((if i < N then pole N i else 0) * (((warp fs c2 - warp fs c1) / 2 : ℝ) : ℂ) *
          ((if i < N then pole N i else 0) * (((warp fs c2 - warp fs c1) / 2 : ℝ) : ℂ)) - (warp fs c1 * warp fs c2 : ℝ)))
        (fun i => (if i < N then pole N i else 0) * (((warp fs c2 - warp fs c1) / 2 : ℝ) : ℂ) -
        sq ((if i < N then pole N i else 0) * (((warp fs c2 - warp fs c1) / 2 : ℝ) : ℂ) *
          ((if i < N then pole N i else 0) * (((warp fs c2 - warp fs c1) / 2 : ℝ) : ℂ)) - (warp fs c1 * warp fs c2 : ℝ))))
      (h := halves N (fun i => up sq l (a i)) (fun i => dn sq l (a i))) (by
        intro k hk
        unfold halves
        by_cases h1 : k < N
        · simp only [if_pos h1]; rfl
        · simp only [if_neg h1, if_pos (show k - N < N by omega)]; rfl)]
    rw [bilin_tab, Res.ok_bind, Res.ok_bind, hQ]
    exact finish (2 * N) (by omega) (halves N (fun _ => 1) fun _ => -1)
      (fun k => filDiv (halves N (fun i => up sq l (a i)) (fun i => dn sq l (a i)) k)) _
  rw [h]
  refine (delivers (2 * N) _ _ _ (realPoly_pairs _ _ _ fun i _ => by simp) ?_).congr (fun w => ?_) fun w => ?_
  · simp only [hfil]
    refine realPoly_pairs _ _ _ fun i hi => ?_
    have hai : (starRingEnd ℂ) (a i) = a (N - 1 - i) := by
      show (starRingEnd ℂ) (_ * _) = _
      rw [map_mul, pole_conj N i hi, Complex.conj_ofReal]
    rw [filDiv_conj, filDiv_conj]
    rcases pair_conj sq hsq l (a i) with ⟨e1, e2⟩ | ⟨e1, e2⟩
    · left; rw [e1, e2, hai]; exact ⟨rfl, rfl⟩
    · right; rw [e1, e2, hai]; exact ⟨rfl, rfl⟩
  · exact congrArg _ (halves_prod N _ _ (fun z => w - z))
  · exact halves_prod N _ _ (fun z => 1 - filDiv z * w)

theorem stop_delivers (sq : ℂ → ℂ) (hsq : ∀ z, sq z ^ 2 = z) (N : Nat) (hN : 1 ≤ N) (fs c1 c2 : ℝ) (h2 : c2 ≠ 0) :
    let a := fun i => (((warp fs c2 - warp fs c1) / 2 : ℝ) : ℂ) / pole N i
    let l := warp fs c1 * warp fs c2
    let m := Complex.I * (Real.sqrt l : ℂ)
    let Q := ∏ i ∈ range N, ((4 - up sq l (a i)) * (4 - dn sq l (a i)))
    let R := ∏ _i ∈ range N, ((4 - m) * (4 - -m))
    Delivers (makeFilter sq .bandstop N fs c1 c2) (2 * N)
      (fun w => (((R.re * Q.re + R.im * Q.im) / Complex.normSq Q : ℝ) : ℂ) *
        ∏ _i ∈ range N, ((w - filDiv m) * (w - filDiv (-m))))
      fun w => ∏ i ∈ range N, ((1 - filDiv (up sq l (a i)) * w) * (1 - filDiv (dn sq l (a i)) * w)) := by
  intro a l m Q R
  have hQ : Q = ∏ i ∈ range (2 * N), (4 - halves N (fun i => up sq l (a i)) (fun i => dn sq l (a i)) i) :=
    (halves_prod N _ _ (fun z => 4 - z)).symm
  have hR : R = ∏ i ∈ range (2 * N), (4 - halves N (fun _ => m) (fun _ => -m) i) :=
    (halves_prod N _ _ (fun z => 4 - z)).symm
  have hfil : ∀ f g k, filDiv (halves N f g k) = halves N (fun i => filDiv (f i)) (fun i => filDiv (g i)) k := by
    intro f g k; unfold halves; split <;> rfl
  have h : makeFilter sq .bandstop N fs c1 c2 = tables (2 * N) (fun k => filDiv (halves N (fun _ => m) (fun _ => -m) k))
      (fun k => filDiv (halves N (fun i => up sq l (a i)) (fun i => dn sq l (a i)) k))
      ((R.re * Q.re + R.im * Q.im) / Complex.normSq Q) := by
    unfold makeFilter
    simp only [if_neg h2]
    rw [Nat.mul_comm N 2, poles_tab N (2 * N) (by omega), Res.ok_bind, replicate_tab]
    unfold bandstop
    rw [stop_tab, Res.ok_bind]
    rw [tab_congr (g := halves N (fun i => (((warp fs c2 - warp fs c1) / 2 : ℝ) : ℂ) / (if i < N then pole N i else 0) +
        sq ((((warp fs c2 - warp fs c1) / 2 : ℝ) : ℂ) / (if i < N then pole N i else 0) *
          ((((warp fs c2 - warp fs c1) / 2 : ℝ) : ℂ) / (if i < N then pole N i else 0)) - (warp fs c1 * warp fs c2 : ℝ)))
        (fun i => (((warp fs c2 - warp fs c1) / 2 : ℝ) : ℂ) / (if i < N then pole N i else 0) -
        sq ((((warp fs c2 - warp fs c1) / 2 : ℝ) : ℂ) / (if i < N then pole N i else 0) *
          ((((warp fs c2 - warp fs c1) / 2 : ℝ) : ℂ) / (if i < N then pole N i else 0)) - (warp fs c1 * warp fs c2 : ℝ))))
      (h := halves N (fun i => up sq l (a i)) (fun i => dn sq l (a i))) (by
        intro k hk
        unfold halves
        by_cases h1 : k < N
        · simp only [if_pos h1]; rfl
        · simp only [if_neg h1, if_pos (show k - N < N by omega)]; rfl)]
    rw [Nat.mul_comm N 2, bilin2_tab, Res.ok_bind, Res.ok_bind, hQ, hR]
    exact finish (2 * N) (by omega) (fun k => filDiv (halves N (fun _ => m) (fun _ => -m) k))
      (fun k => filDiv (halves N (fun i => up sq l (a i)) (fun i => dn sq l (a i)) k)) _
  rw [h]
  have hm : (starRingEnd ℂ) m = -m := by
    show (starRingEnd ℂ) (_ * _) = _
    rw [map_mul, Complex.conj_I, Complex.conj_ofReal, neg_mul]
  refine (delivers (2 * N) _ _ _ ?_ ?_).congr (fun w => ?_) fun w => ?_
  · simp only [hfil]
    refine realPoly_pairs _ _ _ fun i hi => ?_
    right
    rw [filDiv_conj, filDiv_conj, map_neg, hm, neg_neg]
    exact ⟨rfl, rfl⟩
  · simp only [hfil]
    refine realPoly_pairs _ _ _ fun i hi => ?_
    have hai : (starRingEnd ℂ) (a i) = a (N - 1 - i) := by
      show (starRingEnd ℂ) (_ / _) = _
      rw [map_div₀, pole_conj N i hi, Complex.conj_ofReal]
    rw [filDiv_conj, filDiv_conj]
    rcases pair_conj sq hsq l (a i) with ⟨e1, e2⟩ | ⟨e1, e2⟩
    · left; rw [e1, e2, hai]; exact ⟨rfl, rfl⟩
    · right; rw [e1, e2, hai]; exact ⟨rfl, rfl⟩
  · exact congrArg _ (halves_prod N _ _ (fun z => w - filDiv z))
  · exact halves_prod N _ _ (fun z => 1 - filDiv z * w)

/-! ### Corners and the unit circle -/

theorem warp_eq (fs c : ℝ) (h : 0 < fs) : warp fs c = 4 * Real.tan (Real.pi * c / fs) := by
  unfold warp
  congr 2
  field_simp
  norm_num
  ring

theorem tan_corner {fs c : ℝ} (h0 : 0 < c) (h1 : c < fs / 2) : 0 < Real.tan (Real.pi * c / fs) := by
  have hfs : 0 < fs := by linarith
  apply Real.tan_pos_of_pos_of_lt_pi_div_two
  · positivity
  · rw [div_lt_div_iff₀ hfs two_pos]
    nlinarith [Real.pi_pos]

theorem tan_corners {fs c1 c2 : ℝ} (h0 : 0 < c1) (h1 : c1 < c2) (h2 : c2 < fs / 2) :
    Real.tan (Real.pi * c1 / fs) < Real.tan (Real.pi * c2 / fs) := by
  have hfs : 0 < fs := by linarith
  apply Real.tan_lt_tan_of_nonneg_of_lt_pi_div_two
  · positivity
  · rw [div_lt_div_iff₀ hfs two_pos]
    nlinarith [Real.pi_pos]
  · exact div_lt_div_of_pos_right (mul_lt_mul_of_pos_left h1 Real.pi_pos) hfs

theorem cos_freq {fs f : ℝ} (h : |f| < fs / 2) : 0 < Real.cos (Real.pi * f / fs) := by
  have hfs : 0 < fs := by linarith [abs_nonneg f]
  obtain ⟨h1, h2⟩ := abs_lt.mp h
  apply Real.cos_pos_of_mem_Ioo
  constructor
  · rw [← neg_div, div_lt_div_iff₀ two_pos hfs]
    nlinarith [Real.pi_pos]
  · rw [div_lt_div_iff₀ hfs two_pos]
    nlinarith [Real.pi_pos]

/-- One step back in time at the frequency `f`: the value of `z⁻¹`. -/
noncomputable def delay (fs f : ℝ) : ℂ := Complex.exp (-(Complex.I * ((2 * Real.pi * f / fs : ℝ) : ℂ)))

theorem delay_norm (fs f : ℝ) : ‖delay fs f‖ = 1 := by
  unfold delay
  rw [← mul_neg, ← Complex.ofReal_neg, mul_comm]
  exact Complex.norm_exp_ofReal_mul_I _

theorem delay_map (fs f : ℝ) (hc : Real.cos (Real.pi * f / fs) ≠ 0) :
    4 * (1 - delay fs f) = Complex.I * ((4 * Real.tan (Real.pi * f / fs) : ℝ) : ℂ) * (1 + delay fs f) ∧
      1 + delay fs f ≠ 0 := by
  have hd : delay fs f = ((2 * Real.cos (Real.pi * f / fs) ^ 2 - 1 : ℝ) : ℂ) -
      ((2 * Real.sin (Real.pi * f / fs) * Real.cos (Real.pi * f / fs) : ℝ) : ℂ) * Complex.I := by
    unfold delay
    rw [← Real.cos_two_mul, ← Real.sin_two_mul, show 2 * (Real.pi * f / fs) = 2 * Real.pi * f / fs by ring,
      ← mul_neg, ← Complex.ofReal_neg, mul_comm, Complex.exp_mul_I, ← Complex.ofReal_cos, ← Complex.ofReal_sin,
      Real.cos_neg, Real.sin_neg]
    push_cast; ring
  rw [Real.tan_eq_sin_div_cos]
  set C := Real.cos (Real.pi * f / fs)
  set S := Real.sin (Real.pi * f / fs) with hS
  have hCC : (C : ℂ) ≠ 0 := Complex.ofReal_ne_zero.mpr hc
  have h1 : (S : ℂ) ^ 2 + (C : ℂ) ^ 2 = 1 := by
    rw [← Complex.ofReal_pow, ← Complex.ofReal_pow, ← Complex.ofReal_add, Real.sin_sq_add_cos_sq, Complex.ofReal_one]
  have hI := Complex.I_sq
  rw [hd]
  constructor
  · push_cast
    field_simp
    linear_combination -2 * (C : ℂ) * h1 + 2 * (S : ℂ) ^ 2 * C * hI
  · intro h0
    have := congrArg Complex.re h0
    rw [Complex.add_re, Complex.sub_re, Complex.re_ofReal_mul, Complex.I_re, Complex.one_re, Complex.ofReal_re,
      Complex.zero_re] at this
    have := pow_ne_zero 2 hc
    apply this
    linarith

/-! ### The four responses -/

/-- The squared gain of a Butterworth filter of order `N` whose prototype frequency is `b / a`. -/
noncomputable def gain2 (N : Nat) (a b : ℝ) : ℝ := a ^ (2 * N) / (a ^ (2 * N) + b ^ (2 * N))

theorem gain2_scale (N : Nat) (a b r : ℝ) (hr : r ≠ 0) : gain2 N (r * a) (r * b) = gain2 N a b := by
  unfold gain2
  rw [mul_pow, mul_pow, ← mul_add, mul_div_mul_left _ _ (pow_ne_zero _ hr)]

theorem norm_sq_div_prod (N : Nat) (hN : 1 ≤ N) (a c om : ℝ) :
    ‖((a : ℂ) ^ N) / ∏ i ∈ range N, (Complex.I * om - c * pole N i)‖ ^ 2 = a ^ (2 * N) / (om ^ (2 * N) + c ^ (2 * N)) := by
  rw [norm_div, div_pow, butter N hN, norm_pow, ← pow_mul, Nat.mul_comm N 2, pow_mul, Complex.norm_real,
    Real.norm_eq_abs, sq_abs, ← pow_mul]

theorem prod_ne {n : Nat} {F : Nat → ℂ} (h : ∀ i, i < n → F i ≠ 0) : ∏ i ∈ range n, F i ≠ 0 :=
  prod_ne_zero_iff.mpr fun i hi => h i (mem_range.mp hi)

theorem cancel_frac {Q U : ℂ} (hQ : Q ≠ 0) (hU : U ≠ 0) (k P : ℂ) : k / Q * U / (U * P / Q) = k / P := by
  field_simp

theorem low_re {N i : Nat} (h : i < N) {W : ℝ} (hW : 0 < W) : (pole N i * (W : ℂ)).re < 0 := by
  rw [mul_comm, Complex.re_ofReal_mul]
  exact mul_neg_of_pos_of_neg hW (pole_re N i h)

theorem high_eq {N i : Nat} (h : i < N) (W : ℝ) : (W : ℂ) / pole N i = pole N (N - 1 - i) * W := by
  rw [div_eq_mul_inv, pole_inv N i h, mul_comm]

theorem high_re {N i : Nat} (h : i < N) {W : ℝ} (hW : 0 < W) : ((W : ℂ) / pole N i).re < 0 := by
  rw [high_eq h]; exact low_re (by omega) hW

/-- C65, low pass: for every order, sampling frequency and corner below half of it the design succeeds with as many
coefficients as the order and one, the first of the denominator is one, and at every frequency that is not an odd
multiple of half the sampling frequency the squared gain is `1 / (1 + (tan(πf/fs) / tan(πc/fs))^(2N))`. -/
theorem C65_lowpass (sq : ℂ → ℂ) (N : Nat) (hN : 1 ≤ N) (fs c : ℝ) (h0 : 0 < c) (h1 : c < fs / 2) :
    ∃ b a, makeFilter sq .lowpass N fs c 0 = .ok (b, a) ∧ b.length = N + 1 ∧ a.length = N + 1 ∧ a.getD 0 0 = 1 ∧
      ∀ f, Real.cos (Real.pi * f / fs) ≠ 0 → ‖polyAt b (delay fs f) / polyAt a (delay fs f)‖ ^ 2 =
        gain2 N (Real.tan (Real.pi * c / fs)) (Real.tan (Real.pi * f / fs)) := by
  obtain ⟨b, a, e, lb, la, a0, hb, ha⟩ := (low_delivers sq N hN fs c).ex
  refine ⟨b, a, e, lb, la, a0, fun f hf => ?_⟩
  have hfs : 0 < fs := by linarith
  obtain ⟨hm, hu⟩ := delay_map fs f hf
  have hW : 0 < warp fs c := by rw [warp_eq fs c hfs]; linarith [tan_corner h0 h1]
  have hreal := prod_real N (fun i => 4 - pole N i * warp fs c) (fun i hi => by
    rw [map_sub, map_mul, pole_conj N i hi, Complex.conj_ofReal, map_ofNat])
  have hQ : ∏ i ∈ range N, (4 - pole N i * (warp fs c : ℂ)) ≠ 0 := prod_ne fun i hi => four_sub_ne (low_re hi hW)
  have hden : ∏ i ∈ range N, (1 - filDiv (pole N i * warp fs c) * delay fs f) =
      (1 + delay fs f) ^ N * (∏ i ∈ range N, (Complex.I * ((4 * Real.tan (Real.pi * f / fs) : ℝ) : ℂ) -
        (warp fs c : ℂ) * pole N i)) / ∏ i ∈ range N, (4 - pole N i * (warp fs c : ℂ)) := by
    rw [← card_range N, ← prod_const, card_range, ← prod_mul_distrib, ← prod_div_distrib]
    refine prod_congr rfl fun i hi => ?_
    rw [den_factor (low_re (mem_range.mp hi) hW), hm]
    congr 1; ring
  rw [hb, ha, hden, prod_const, card_range, sub_neg_eq_add, add_comm (delay fs f) 1]
  rw [Complex.ofReal_div, hreal]
  rw [show ((warp fs c ^ N : ℝ) : ℂ) / (∏ i ∈ range N, (4 - pole N i * (warp fs c : ℂ))) * (1 + delay fs f) ^ N /
      ((1 + delay fs f) ^ N * (∏ i ∈ range N, (Complex.I * ((4 * Real.tan (Real.pi * f / fs) : ℝ) : ℂ) -
        (warp fs c : ℂ) * pole N i)) / ∏ i ∈ range N, (4 - pole N i * (warp fs c : ℂ))) =
      (warp fs c : ℂ) ^ N / ∏ i ∈ range N, (Complex.I * ((4 * Real.tan (Real.pi * f / fs) : ℝ) : ℂ) -
        (warp fs c : ℂ) * pole N i) by
    have hu' := pow_ne_zero N hu
    rw [Complex.ofReal_pow]
    exact cancel_frac hQ hu' _ _]
  rw [norm_sq_div_prod N hN, add_comm, warp_eq fs c hfs]
  exact gain2_scale N _ _ 4 four_ne_zero

/-- C65, high pass: the squared gain is `1 / (1 + (tan(πc/fs) / tan(πf/fs))^(2N))`. -/
theorem C65_highpass (sq : ℂ → ℂ) (N : Nat) (hN : 1 ≤ N) (fs c : ℝ) (h0 : 0 < c) (h1 : c < fs / 2) :
    ∃ b a, makeFilter sq .highpass N fs c 0 = .ok (b, a) ∧ b.length = N + 1 ∧ a.length = N + 1 ∧ a.getD 0 0 = 1 ∧
      ∀ f, Real.cos (Real.pi * f / fs) ≠ 0 → ‖polyAt b (delay fs f) / polyAt a (delay fs f)‖ ^ 2 =
        gain2 N (Real.tan (Real.pi * f / fs)) (Real.tan (Real.pi * c / fs)) := by
  obtain ⟨b, a, e, lb, la, a0, hb, ha⟩ := (high_delivers sq N hN fs c).ex
  refine ⟨b, a, e, lb, la, a0, fun f hf => ?_⟩
  have hfs : 0 < fs := by linarith
  obtain ⟨hm, hu⟩ := delay_map fs f hf
  have hW : 0 < warp fs c := by rw [warp_eq fs c hfs]; linarith [tan_corner h0 h1]
  have hreal := prod_real N (fun i => 4 - warp fs c / pole N i) (fun i hi => by
    rw [map_sub, map_div₀, pole_conj N i hi, Complex.conj_ofReal, map_ofNat])
  have hQ : ∏ i ∈ range N, (4 - (warp fs c : ℂ) / pole N i) ≠ 0 := prod_ne fun i hi => four_sub_ne (high_re hi hW)
  have hden : ∏ i ∈ range N, (1 - filDiv (warp fs c / pole N i) * delay fs f) =
      (1 + delay fs f) ^ N * (∏ i ∈ range N, (Complex.I * ((4 * Real.tan (Real.pi * f / fs) : ℝ) : ℂ) -
        (warp fs c : ℂ) * pole N i)) / ∏ i ∈ range N, (4 - (warp fs c : ℂ) / pole N i) := by
    rw [← prod_range_reflect (fun i => Complex.I * ((4 * Real.tan (Real.pi * f / fs) : ℝ) : ℂ) - (warp fs c : ℂ) * pole N i)]
    rw [← card_range N, ← prod_const, card_range, ← prod_mul_distrib, ← prod_div_distrib]
    refine prod_congr rfl fun i hi => ?_
    rw [den_factor (high_re (mem_range.mp hi) hW), hm]
    congr 1
    rw [high_eq (mem_range.mp hi)]; ring
  have hnum : (4 : ℂ) ^ N * (delay fs f - 1) ^ N = (-(Complex.I * (1 + delay fs f))) ^ N *
      ((4 * Real.tan (Real.pi * f / fs) : ℝ) : ℂ) ^ N := by
    rw [← mul_pow, ← mul_pow]
    congr 1
    linear_combination -hm
  rw [hb, ha, hden, prod_const, card_range, poles_prod, Complex.one_re, div_one, one_mul, Complex.ofReal_div, hreal]
  rw [show ((4 ^ N : ℝ) : ℂ) / (∏ i ∈ range N, (4 - (warp fs c : ℂ) / pole N i)) * (delay fs f - 1) ^ N /
      ((1 + delay fs f) ^ N * (∏ i ∈ range N, (Complex.I * ((4 * Real.tan (Real.pi * f / fs) : ℝ) : ℂ) -
        (warp fs c : ℂ) * pole N i)) / ∏ i ∈ range N, (4 - (warp fs c : ℂ) / pole N i)) =
      (-Complex.I) ^ N * (((4 * Real.tan (Real.pi * f / fs) : ℝ) : ℂ) ^ N /
        ∏ i ∈ range N, (Complex.I * ((4 * Real.tan (Real.pi * f / fs) : ℝ) : ℂ) - (warp fs c : ℂ) * pole N i)) by
    have hu' := pow_ne_zero N hu
    rw [Complex.ofReal_pow, Complex.ofReal_ofNat, ← mul_div_right_comm, hnum, neg_mul_eq_neg_mul, mul_pow]
    field_simp]
  rw [norm_mul, norm_pow, norm_neg, Complex.norm_I, one_pow, one_mul, norm_sq_div_prod N hN, warp_eq fs c hfs]
  exact gain2_scale N _ _ 4 four_ne_zero

/-! #### The band filters -/

theorem up_mul_dn (sq : ℂ → ℂ) (hsq : ∀ z, sq z ^ 2 = z) (l : ℝ) (a : ℂ) : up sq l a * dn sq l a = l := by
  unfold up dn
  have := hsq (a * a - l)
  linear_combination -this

theorem up_add_dn (sq : ℂ → ℂ) (l : ℝ) (a : ℂ) : up sq l a + dn sq l a = 2 * a := by
  unfold up dn; ring

theorem pair_re {x y : ℂ} {l : ℝ} (hl : 0 < l) (hm : x * y = l) (hs : (x + y).re < 0) : x.re < 0 := by
  have hx : x ≠ 0 := by
    intro h
    rw [h, zero_mul] at hm
    exact hl.ne' (Complex.ofReal_eq_zero.mp hm.symm)
  have hn : 0 < Complex.normSq x := Complex.normSq_pos.mpr hx
  have h1 : y.re * Complex.normSq x = l * x.re := by
    have h2 := congrArg Complex.re hm
    have h3 := congrArg Complex.im hm
    rw [Complex.mul_re, Complex.ofReal_re] at h2
    rw [Complex.mul_im, Complex.ofReal_im] at h3
    rw [Complex.normSq_apply]
    linear_combination x.re * h2 + x.im * h3
  rw [Complex.add_re] at hs
  by_contra h
  have h := not_lt.mp h
  have : 0 ≤ y.re * Complex.normSq x := by rw [h1]; exact mul_nonneg hl.le h
  have := nonneg_of_mul_nonneg_left this hn
  linarith

theorem up_re (sq : ℂ → ℂ) (hsq : ∀ z, sq z ^ 2 = z) {l : ℝ} (hl : 0 < l) {a : ℂ} (ha : a.re < 0) : (up sq l a).re < 0 :=
  pair_re hl (up_mul_dn sq hsq l a) (by rw [up_add_dn, two_mul, Complex.add_re]; linarith)

theorem dn_re (sq : ℂ → ℂ) (hsq : ∀ z, sq z ^ 2 = z) {l : ℝ} (hl : 0 < l) {a : ℂ} (ha : a.re < 0) : (dn sq l a).re < 0 :=
  pair_re hl (by rw [mul_comm]; exact up_mul_dn sq hsq l a) (by rw [add_comm, up_add_dn, two_mul, Complex.add_re]; linarith)

theorem pair_prod (sq : ℂ → ℂ) (hsq : ∀ z, sq z ^ 2 = z) (l : ℝ) (a v : ℂ) :
    (v - up sq l a) * (v - dn sq l a) = v ^ 2 - 2 * a * v + l := by
  linear_combination up_mul_dn sq hsq l a - v * up_add_dn sq l a

/-- One pair of factors of the denominator on the unit circle. -/
theorem pair_den (sq : ℂ → ℂ) (hsq : ∀ z, sq z ^ 2 = z) {l : ℝ} (hl : 0 < l) {a : ℂ} (ha : a.re < 0) {w : ℂ} {T : ℝ}
    (hm : 4 * (1 - w) = Complex.I * (T : ℂ) * (1 + w)) :
    (1 - filDiv (up sq l a) * w) * (1 - filDiv (dn sq l a) * w) =
      (-Complex.I * (1 + w) ^ 2) * (Complex.I * ((l - T ^ 2 : ℝ) : ℂ) + T * (2 * a)) /
        ((4 - up sq l a) * (4 - dn sq l a)) := by
  rw [den_factor (up_re sq hsq hl ha), den_factor (dn_re sq hsq hl ha), hm, div_mul_div_comm]
  congr 1
  have h := pair_prod sq hsq l a (Complex.I * T)
  push_cast
  have hI := Complex.I_sq
  linear_combination (1 + w) ^ 2 * h + (1 + w) ^ 2 * l * hI

/-- A product over all pairs is real. -/
theorem pairs_real (sq : ℂ → ℂ) (hsq : ∀ z, sq z ^ 2 = z) (N : Nat) (l : ℝ) (a : Nat → ℂ)
    (ha : ∀ i, i < N → (starRingEnd ℂ) (a i) = a (N - 1 - i)) :
    (((∏ i ∈ range N, ((4 - up sq l (a i)) * (4 - dn sq l (a i)))).re : ℝ) : ℂ) =
      ∏ i ∈ range N, ((4 - up sq l (a i)) * (4 - dn sq l (a i))) := by
  apply prod_real
  intro i hi
  rw [pair_prod sq hsq, pair_prod sq hsq, map_add, map_sub, map_mul, map_mul, map_pow, ha i hi, Complex.conj_ofReal,
    map_ofNat, map_ofNat]

theorem real_quot {Q : ℂ} (hQ : ((Q.re : ℝ) : ℂ) = Q) (h0 : Q ≠ 0) (k : ℝ) :
    ((k * Q.re / Complex.normSq Q : ℝ) : ℂ) = k / Q := by
  have hn : Complex.normSq Q = Q.re * Q.re := by
    rw [Complex.normSq_apply, ← hQ]; simp
  rw [hn, Complex.ofReal_div, Complex.ofReal_mul, Complex.ofReal_mul, hQ]
  field_simp

/-- C65, band pass, for every complex square root: with `t`, `t₁`, `t₂` the tangents of the frequency and the corners
the squared gain is `1 / (1 + ((t² - t₁t₂) / ((t₂ - t₁)t))^(2N))`.  The filter has twice as many poles as asked for. -/
theorem C65_bandpass (sq : ℂ → ℂ) (hsq : ∀ z, sq z ^ 2 = z) (N : Nat) (hN : 1 ≤ N) (fs c1 c2 : ℝ) (h0 : 0 < c1)
    (h1 : c1 < c2) (h2 : c2 < fs / 2) :
    ∃ b a, makeFilter sq .bandpass N fs c1 c2 = .ok (b, a) ∧ b.length = 2 * N + 1 ∧ a.length = 2 * N + 1 ∧
      a.getD 0 0 = 1 ∧ ∀ f, Real.cos (Real.pi * f / fs) ≠ 0 → ‖polyAt b (delay fs f) / polyAt a (delay fs f)‖ ^ 2 =
        gain2 N ((Real.tan (Real.pi * c2 / fs) - Real.tan (Real.pi * c1 / fs)) * Real.tan (Real.pi * f / fs))
          (Real.tan (Real.pi * f / fs) ^ 2 - Real.tan (Real.pi * c1 / fs) * Real.tan (Real.pi * c2 / fs)) := by
  obtain ⟨b, a, e, lb, la, a0, hb, ha⟩ := (band_delivers sq hsq N hN fs c1 c2 (by linarith)).ex
  refine ⟨b, a, e, lb, la, a0, fun f hf => ?_⟩
  have hfs : 0 < fs := by linarith
  obtain ⟨hm, hu⟩ := delay_map fs f hf
  have t1 := tan_corner h0 (by linarith : c1 < fs / 2)
  have t2 := tan_corner (by linarith : 0 < c2) h2
  have t12 := tan_corners h0 h1 h2
  rw [hb, ha]
  clear hb ha
  rw [warp_eq fs c1 hfs, warp_eq fs c2 hfs]
  generalize Real.tan (Real.pi * c1 / fs) = r1 at *
  generalize Real.tan (Real.pi * c2 / fs) = r2 at *
  generalize Real.tan (Real.pi * f / fs) = t at *
  generalize delay fs f = w at *
  set l := 4 * r1 * (4 * r2) with hl
  have hl0 : 0 < l := by positivity
  set α : Nat → ℂ := fun i => pole N i * (((4 * r2 - 4 * r1) / 2 : ℝ) : ℂ) with hα
  have hαre : ∀ i, i < N → (α i).re < 0 := fun i hi => low_re hi (by linarith)
  have hαc : ∀ i, i < N → (starRingEnd ℂ) (α i) = α (N - 1 - i) := fun i hi => by
    show (starRingEnd ℂ) (_ * _) = _
    rw [map_mul, pole_conj N i hi, Complex.conj_ofReal]
  have hreal := pairs_real sq hsq N l α hαc
  have hQ : ∏ i ∈ range N, ((4 - up sq l (α i)) * (4 - dn sq l (α i))) ≠ 0 := prod_ne fun i hi =>
    mul_ne_zero (four_sub_ne (up_re sq hsq hl0 (hαre i hi))) (four_sub_ne (dn_re sq hsq hl0 (hαre i hi)))
  have hden : ∏ i ∈ range N, ((1 - filDiv (up sq l (α i)) * w) * (1 - filDiv (dn sq l (α i)) * w)) =
      (-Complex.I * (1 + w) ^ 2) ^ N * (∏ i ∈ range N, (Complex.I * ((l - (4 * t) ^ 2 : ℝ) : ℂ) -
        ((-(4 * t * (4 * r2 - 4 * r1)) : ℝ) : ℂ) * pole N i)) /
        ∏ i ∈ range N, ((4 - up sq l (α i)) * (4 - dn sq l (α i))) := by
    rw [← card_range N, ← prod_const, card_range, ← prod_mul_distrib, ← prod_div_distrib]
    refine prod_congr rfl fun i hi => ?_
    rw [pair_den sq hsq hl0 (hαre i (mem_range.mp hi)) hm]
    congr 2
    rw [hα]; push_cast; ring
  have hnum : (4 : ℂ) ^ N * ((w - 1) * (w - -1)) ^ N = (-Complex.I * (1 + w) ^ 2) ^ N * ((4 * t : ℝ) : ℂ) ^ N := by
    rw [← mul_pow, ← mul_pow]
    congr 1
    linear_combination -(1 + w) * hm
  rw [hden, real_quot hreal hQ, prod_const, card_range]
  rw [show (((4 * r2 - 4 * r1) ^ N * 4 ^ N : ℝ) : ℂ) / (∏ i ∈ range N, ((4 - up sq l (α i)) * (4 - dn sq l (α i)))) *
      ((w - 1) * (w - -1)) ^ N = ((4 * t * (4 * r2 - 4 * r1) : ℝ) : ℂ) ^ N /
        (∏ i ∈ range N, ((4 - up sq l (α i)) * (4 - dn sq l (α i)))) * (-Complex.I * (1 + w) ^ 2) ^ N by
    rw [div_mul_eq_mul_div, div_mul_eq_mul_div]
    congr 1
    rw [Complex.ofReal_mul _ (4 ^ N : ℝ), Complex.ofReal_pow, Complex.ofReal_pow, Complex.ofReal_ofNat, mul_assoc, hnum,
      Complex.ofReal_mul (4 * t), mul_pow]
    ring]
  rw [cancel_frac hQ (pow_ne_zero _ (mul_ne_zero (neg_ne_zero.mpr Complex.I_ne_zero) (pow_ne_zero 2 hu))),
    norm_sq_div_prod N hN, (even_two_mul N).neg_pow, add_comm]
  show gain2 N _ _ = _
  rw [show l - (4 * t) ^ 2 = 16 * -(t ^ 2 - r1 * r2) by rw [hl]; ring,
    show 4 * t * (4 * r2 - 4 * r1) = 16 * ((r2 - r1) * t) by ring, gain2_scale N _ _ 16 (by norm_num)]
  unfold gain2
  rw [(even_two_mul N).neg_pow]

/-- C65, band stop: the squared gain is `1 / (1 + ((t₂ - t₁)t / (t² - t₁t₂))^(2N))`. -/
theorem C65_bandstop (sq : ℂ → ℂ) (hsq : ∀ z, sq z ^ 2 = z) (N : Nat) (hN : 1 ≤ N) (fs c1 c2 : ℝ) (h0 : 0 < c1)
    (h1 : c1 < c2) (h2 : c2 < fs / 2) :
    ∃ b a, makeFilter sq .bandstop N fs c1 c2 = .ok (b, a) ∧ b.length = 2 * N + 1 ∧ a.length = 2 * N + 1 ∧
      a.getD 0 0 = 1 ∧ ∀ f, Real.cos (Real.pi * f / fs) ≠ 0 → ‖polyAt b (delay fs f) / polyAt a (delay fs f)‖ ^ 2 =
        gain2 N (Real.tan (Real.pi * f / fs) ^ 2 - Real.tan (Real.pi * c1 / fs) * Real.tan (Real.pi * c2 / fs))
          ((Real.tan (Real.pi * c2 / fs) - Real.tan (Real.pi * c1 / fs)) * Real.tan (Real.pi * f / fs)) := by
  obtain ⟨b, a, e, lb, la, a0, hb, ha⟩ := (stop_delivers sq hsq N hN fs c1 c2 (by linarith)).ex
  refine ⟨b, a, e, lb, la, a0, fun f hf => ?_⟩
  have hfs : 0 < fs := by linarith
  obtain ⟨hm, hu⟩ := delay_map fs f hf
  have t1 := tan_corner h0 (by linarith : c1 < fs / 2)
  have t2 := tan_corner (by linarith : 0 < c2) h2
  have t12 := tan_corners h0 h1 h2
  rw [hb, ha]
  clear hb ha
  rw [warp_eq fs c1 hfs, warp_eq fs c2 hfs]
  generalize Real.tan (Real.pi * c1 / fs) = r1 at *
  generalize Real.tan (Real.pi * c2 / fs) = r2 at *
  generalize Real.tan (Real.pi * f / fs) = t at *
  generalize delay fs f = w at *
  set l := 4 * r1 * (4 * r2) with hl
  have hl0 : 0 < l := by positivity
  set α : Nat → ℂ := fun i => (((4 * r2 - 4 * r1) / 2 : ℝ) : ℂ) / pole N i with hα
  have hαre : ∀ i, i < N → (α i).re < 0 := fun i hi => high_re hi (by linarith)
  have hαc : ∀ i, i < N → (starRingEnd ℂ) (α i) = α (N - 1 - i) := fun i hi => by
    show (starRingEnd ℂ) (_ / _) = _
    rw [map_div₀, pole_conj N i hi, Complex.conj_ofReal]
  have hreal := pairs_real sq hsq N l α hαc
  have hQ : ∏ i ∈ range N, ((4 - up sq l (α i)) * (4 - dn sq l (α i))) ≠ 0 := prod_ne fun i hi =>
    mul_ne_zero (four_sub_ne (up_re sq hsq hl0 (hαre i hi))) (four_sub_ne (dn_re sq hsq hl0 (hαre i hi)))
  have hden : ∏ i ∈ range N, ((1 - filDiv (up sq l (α i)) * w) * (1 - filDiv (dn sq l (α i)) * w)) =
      ((1 + w) ^ 2) ^ N * ((-Complex.I) ^ N * (∏ i ∈ range N, (Complex.I * ((l - (4 * t) ^ 2 : ℝ) : ℂ) -
        ((-(4 * t * (4 * r2 - 4 * r1)) : ℝ) : ℂ) * pole N i))) /
        ∏ i ∈ range N, ((4 - up sq l (α i)) * (4 - dn sq l (α i))) := by
    rw [← prod_range_reflect (fun i => Complex.I * ((l - (4 * t) ^ 2 : ℝ) : ℂ) -
        ((-(4 * t * (4 * r2 - 4 * r1)) : ℝ) : ℂ) * pole N i), ← mul_assoc, ← mul_pow]
    rw [← card_range N, ← prod_const, card_range, ← prod_mul_distrib, ← prod_div_distrib]
    refine prod_congr rfl fun i hi => ?_
    rw [pair_den sq hsq hl0 (hαre i (mem_range.mp hi)) hm]
    congr 1
    rw [hα]
    simp only
    rw [high_eq (mem_range.mp hi)]
    push_cast; ring
  set m := Complex.I * (Real.sqrt l : ℂ) with hmm
  have hm2 : m * m = -(l : ℂ) := by
    have h3 : (Real.sqrt l : ℂ) * (Real.sqrt l : ℂ) = l := by rw [← Complex.ofReal_mul, Real.mul_self_sqrt hl0.le]
    have hI := Complex.I_mul_I
    rw [hmm]
    linear_combination Complex.I * Complex.I * h3 + (l : ℂ) * hI
  have hmre : m.re = 0 := by rw [hmm]; simp
  have hm4 : 4 - m ≠ 0 := by
    intro h; have := congrArg Complex.re h
    rw [Complex.sub_re, hmre] at this; norm_num at this
  have hm4' : 4 - -m ≠ 0 := by
    intro h; have := congrArg Complex.re h
    rw [Complex.sub_re, Complex.neg_re, hmre] at this; norm_num at this
  have hR : (4 - m) * (4 - -m) = ((16 + l : ℝ) : ℂ) := by
    push_cast
    linear_combination -hm2
  have hl16 : ((16 + l : ℝ) : ℂ) ≠ 0 := Complex.ofReal_ne_zero.mpr (by positivity)
  have hnum : (w - filDiv m) * (w - filDiv (-m)) = ((l - (4 * t) ^ 2 : ℝ) : ℂ) * (1 + w) ^ 2 / ((16 + l : ℝ) : ℂ) := by
    have e1 : w - filDiv m = (-(4 * (1 - w)) - m * (1 + w)) / (4 - m) := by
      unfold filDiv; field_simp; ring
    have e2 : w - filDiv (-m) = (-(4 * (1 - w)) - -m * (1 + w)) / (4 - -m) := by
      unfold filDiv; field_simp; ring
    rw [e1, e2, div_mul_div_comm, hR, hm]
    congr 1
    push_cast
    have hI := Complex.I_mul_I
    linear_combination -(1 + w) ^ 2 * hm2 + (1 + w) ^ 2 * (4 * (t : ℂ)) ^ 2 * hI
  simp only [prod_const, card_range]
  rw [hR, ← Complex.ofReal_pow, Complex.ofReal_im, zero_mul, add_zero, Complex.ofReal_re, hden, real_quot hreal hQ, hnum]
  rw [show (((16 + l) ^ N : ℝ) : ℂ) / (∏ i ∈ range N, ((4 - up sq l (α i)) * (4 - dn sq l (α i)))) *
      (((l - (4 * t) ^ 2 : ℝ) : ℂ) * (1 + w) ^ 2 / ((16 + l : ℝ) : ℂ)) ^ N = ((l - (4 * t) ^ 2 : ℝ) : ℂ) ^ N /
        (∏ i ∈ range N, ((4 - up sq l (α i)) * (4 - dn sq l (α i)))) * ((1 + w) ^ 2) ^ N by
    rw [Complex.ofReal_pow, div_pow, mul_pow]
    have := pow_ne_zero N hl16
    field_simp]
  rw [cancel_frac hQ (pow_ne_zero _ (pow_ne_zero 2 hu)), mul_comm ((-Complex.I) ^ N), ← div_div, norm_div, norm_pow (-Complex.I),
    norm_neg, Complex.norm_I, one_pow, div_one, norm_sq_div_prod N hN, (even_two_mul N).neg_pow]
  show gain2 N _ _ = _
  rw [show l - (4 * t) ^ 2 = 16 * -(t ^ 2 - r1 * r2) by rw [hl]; ring,
    show 4 * t * (4 * r2 - 4 * r1) = 16 * ((r2 - r1) * t) by ring, gain2_scale N _ _ 16 (by norm_num)]
  unfold gain2
  rw [(even_two_mul N).neg_pow]

/-- Corners a user may give: between zero and half the sampling frequency, the second zero for a single one. -/
def Admissible (type : Fltr) (fs c1 c2 : ℝ) : Prop :=
  match type with
  | .lowpass | .highpass => 0 < c1 ∧ c1 < fs / 2 ∧ c2 = 0
  | .bandpass | .bandstop => 0 < c1 ∧ c1 < c2 ∧ c2 < fs / 2

theorem gain2_same (N : Nat) (a : ℝ) (ha : a ≠ 0) : gain2 N a a = 1 / 2 := by
  unfold gain2
  have := pow_ne_zero (2 * N) ha
  field_simp
  norm_num

theorem gain2_neg (N : Nat) (a b : ℝ) : gain2 N a (-b) = gain2 N a b := by
  unfold gain2; rw [(even_two_mul N).neg_pow]

theorem gain2_neg' (N : Nat) (a b : ℝ) : gain2 N (-a) b = gain2 N a b := by
  unfold gain2; rw [(even_two_mul N).neg_pow]

/-- C65, corners: for all four types the power is halved at every corner. -/
theorem C65_corners (sq : ℂ → ℂ) (hsq : ∀ z, sq z ^ 2 = z) (type : Fltr) (N : Nat) (hN : 1 ≤ N) (fs c1 c2 : ℝ)
    (h : Admissible type fs c1 c2) :
    ∃ b a, makeFilter sq type N fs c1 c2 = .ok (b, a) ∧ ∀ c, (c = c1 ∨ c = c2 ∧ c2 ≠ 0) →
      ‖polyAt b (delay fs c) / polyAt a (delay fs c)‖ ^ 2 = 1 / 2 := by
  cases type with
  | lowpass =>
    obtain ⟨h0, h1, h2⟩ := h
    subst h2
    obtain ⟨b, a, e, _, _, _, hg⟩ := C65_lowpass sq N hN fs c1 h0 h1
    refine ⟨b, a, e, fun c hc => ?_⟩
    obtain rfl : c = c1 := hc.resolve_right fun h => h.2 rfl
    rw [hg c (cos_freq (by rw [abs_of_pos h0]; exact h1)).ne']
    exact gain2_same N _ (tan_corner h0 h1).ne'
  | highpass =>
    obtain ⟨h0, h1, h2⟩ := h
    subst h2
    obtain ⟨b, a, e, _, _, _, hg⟩ := C65_highpass sq N hN fs c1 h0 h1
    refine ⟨b, a, e, fun c hc => ?_⟩
    obtain rfl : c = c1 := hc.resolve_right fun h => h.2 rfl
    rw [hg c (cos_freq (by rw [abs_of_pos h0]; exact h1)).ne']
    exact gain2_same N _ (tan_corner h0 h1).ne'
  | bandpass =>
    obtain ⟨h0, h1, h2⟩ := h
    obtain ⟨b, a, e, _, _, _, hg⟩ := C65_bandpass sq hsq N hN fs c1 c2 h0 h1 h2
    refine ⟨b, a, e, fun c hc => ?_⟩
    have t1 := tan_corner h0 (by linarith : c1 < fs / 2)
    have t2 := tan_corner (by linarith : 0 < c2) h2
    have t12 := tan_corners h0 h1 h2
    rcases hc with rfl | ⟨rfl, _⟩
    · rw [hg c (cos_freq (by rw [abs_of_pos h0]; linarith)).ne']
      rw [show Real.tan (Real.pi * c / fs) ^ 2 - Real.tan (Real.pi * c / fs) * Real.tan (Real.pi * c2 / fs) =
        -((Real.tan (Real.pi * c2 / fs) - Real.tan (Real.pi * c / fs)) * Real.tan (Real.pi * c / fs)) by ring, gain2_neg]
      exact gain2_same N _ (mul_pos (sub_pos.mpr t12) t1).ne'
    · rw [hg c (cos_freq (by rw [abs_of_pos (by linarith)]; exact h2)).ne']
      rw [show Real.tan (Real.pi * c / fs) ^ 2 - Real.tan (Real.pi * c1 / fs) * Real.tan (Real.pi * c / fs) =
        (Real.tan (Real.pi * c / fs) - Real.tan (Real.pi * c1 / fs)) * Real.tan (Real.pi * c / fs) by ring]
      exact gain2_same N _ (mul_pos (sub_pos.mpr t12) t2).ne'
  | bandstop =>
    obtain ⟨h0, h1, h2⟩ := h
    obtain ⟨b, a, e, _, _, _, hg⟩ := C65_bandstop sq hsq N hN fs c1 c2 h0 h1 h2
    refine ⟨b, a, e, fun c hc => ?_⟩
    have t1 := tan_corner h0 (by linarith : c1 < fs / 2)
    have t2 := tan_corner (by linarith : 0 < c2) h2
    have t12 := tan_corners h0 h1 h2
    rcases hc with rfl | ⟨rfl, _⟩
    · rw [hg c (cos_freq (by rw [abs_of_pos h0]; linarith)).ne']
      rw [show Real.tan (Real.pi * c / fs) ^ 2 - Real.tan (Real.pi * c / fs) * Real.tan (Real.pi * c2 / fs) =
        -((Real.tan (Real.pi * c2 / fs) - Real.tan (Real.pi * c / fs)) * Real.tan (Real.pi * c / fs)) by ring, gain2_neg']
      exact gain2_same N _ (mul_pos (sub_pos.mpr t12) t1).ne'
    · rw [hg c (cos_freq (by rw [abs_of_pos (by linarith)]; exact h2)).ne']
      rw [show Real.tan (Real.pi * c / fs) ^ 2 - Real.tan (Real.pi * c1 / fs) * Real.tan (Real.pi * c / fs) =
        (Real.tan (Real.pi * c / fs) - Real.tan (Real.pi * c1 / fs)) * Real.tan (Real.pi * c / fs) by ring]
      exact gain2_same N _ (mul_pos (sub_pos.mpr t12) t2).ne'

/-- There is a complex square root, and there are admissible corners of every type. -/
example : (∃ sq : ℂ → ℂ, ∀ z, sq z ^ 2 = z) ∧ Admissible .lowpass 500 60 0 ∧ Admissible .highpass 500 60 0 ∧
    Admissible .bandpass 500 10 60 ∧ Admissible .bandstop 500 10 60 := by
  refine ⟨⟨fun z => z ^ ((2 : ℂ)⁻¹), fun z => ?_⟩, ?_, ?_, ?_, ?_⟩
  · simp
  all_goals simp only [Admissible]; norm_num

/-- C66. For all four types, every order and all admissible corners the filter is stable: the denominator has no zero
in the closed unit disc (in powers of one step back in time). -/
theorem C66_stable (sq : ℂ → ℂ) (hsq : ∀ z, sq z ^ 2 = z) (type : Fltr) (N : Nat) (hN : 1 ≤ N) (fs c1 c2 : ℝ)
    (h : Admissible type fs c1 c2) :
    ∃ b a, makeFilter sq type N fs c1 c2 = .ok (b, a) ∧ ∀ w, ‖w‖ ≤ 1 → polyAt a w ≠ 0 := by
  have hW : ∀ c, 0 < c → c < fs / 2 → 0 < warp fs c := fun c h0 h1 => by
    rw [warp_eq fs c (by linarith)]; linarith [tan_corner h0 h1]
  cases type with
  | lowpass =>
    obtain ⟨h0, h1, h2⟩ := h
    subst h2
    obtain ⟨b, a, e, _, _, _, _, ha⟩ := (low_delivers sq N hN fs c1).ex
    refine ⟨b, a, e, fun w hw => ?_⟩
    rw [ha]
    exact prod_ne fun i hi => stable_factor (low_re hi (hW _ h0 h1)) hw
  | highpass =>
    obtain ⟨h0, h1, h2⟩ := h
    subst h2
    obtain ⟨b, a, e, _, _, _, _, ha⟩ := (high_delivers sq N hN fs c1).ex
    refine ⟨b, a, e, fun w hw => ?_⟩
    rw [ha]
    exact prod_ne fun i hi => stable_factor (high_re hi (hW _ h0 h1)) hw
  | bandpass =>
    obtain ⟨h0, h1, h2⟩ := h
    obtain ⟨b, a, e, _, _, _, _, ha⟩ := (band_delivers sq hsq N hN fs c1 c2 (by linarith)).ex
    refine ⟨b, a, e, fun w hw => ?_⟩
    rw [ha]
    have hl : 0 < warp fs c1 * warp fs c2 := mul_pos (hW _ h0 (by linarith)) (hW _ (by linarith) h2)
    have hB : 0 < (warp fs c2 - warp fs c1) / 2 := by
      rw [warp_eq fs c1 (by linarith), warp_eq fs c2 (by linarith)]
      linarith [tan_corners h0 h1 h2]
    exact prod_ne fun i hi => mul_ne_zero (stable_factor (up_re sq hsq hl (low_re hi hB)) hw)
      (stable_factor (dn_re sq hsq hl (low_re hi hB)) hw)
  | bandstop =>
    obtain ⟨h0, h1, h2⟩ := h
    obtain ⟨b, a, e, _, _, _, _, ha⟩ := (stop_delivers sq hsq N hN fs c1 c2 (by linarith)).ex
    refine ⟨b, a, e, fun w hw => ?_⟩
    rw [ha]
    have hl : 0 < warp fs c1 * warp fs c2 := mul_pos (hW _ h0 (by linarith)) (hW _ (by linarith) h2)
    have hB : 0 < (warp fs c2 - warp fs c1) / 2 := by
      rw [warp_eq fs c1 (by linarith), warp_eq fs c2 (by linarith)]
      linarith [tan_corners h0 h1 h2]
    exact prod_ne fun i hi => mul_ne_zero (stable_factor (up_re sq hsq hl (high_re hi hB)) hw)
      (stable_factor (dn_re sq hsq hl (high_re hi hB)) hw)

/-- A filter of order zero is outside the claims: the first of no zeros is read. -/
theorem C66_zero (sq : ℂ → ℂ) (type : Fltr) (fs c1 c2 : ℝ) : makeFilter sq type 0 fs c1 c2 = .ub := by
  cases type <;> by_cases h : c2 = 0 <;> simp [makeFilter, h, forRange, lowpass, highpass, bandpass, bandstop] <;> rfl

end Verif.Signal
