import Verif.Signal.Design
import Verif.Props.Poly
import Mathlib.RingTheory.Polynomial.Cyclotomic.Basic
import Mathlib.RingTheory.RootsOfUnity.Complex

/-!
Lemmas about the design of the temporal filter: the loops in closed form, the poles, the Butterworth product.
-/

namespace Verif.Signal

open Polynomial Finset

/-! ### Arrays given by a function -/

section
variable {V : Type}

theorem readAt_tab {n i : Nat} (g : Nat → V) (h : i < n) : readAt ((List.range n).map g) i = .ok (g i) := by
  rw [readAt_ok (by simpa using h)]; simp

theorem writeAt_tab {n i : Nat} (g : Nat → V) (v : V) (h : i < n) :
    writeAt ((List.range n).map g) i v = .ok ((List.range n).map fun k => if k = i then v else g k) := by
  rw [writeAt_ok _ (by simpa using h)]
  congr 1
  apply List.ext_getElem?
  intro k
  rw [List.getElem?_set]
  by_cases hk : i = k
  · subst hk; simp [h]
  · rw [if_neg hk]
    by_cases hkn : k < n
    · simp [hkn, Ne.symm hk]
    · simp [hkn]

theorem tab_congr {n : Nat} {g h : Nat → V} (e : ∀ k, k < n → g k = h k) : (List.range n).map g = (List.range n).map h :=
  List.map_congr_left fun k hk => e k (List.mem_range.mp hk)

theorem tab_prod {M : Type} [CommMonoid M] (n : Nat) (g : Nat → V) (f : V → M) :
    (((List.range n).map g).map f).prod = ∏ i ∈ range n, f (g i) := by
  induction n with
  | zero => simp
  | succ n ih => rw [List.range_succ, List.map_append, List.map_append, List.prod_append, ih, prod_range_succ]; simp

theorem replicate_tab (n : Nat) (v : V) : List.replicate n v = (List.range n).map fun _ => v := by
  apply List.ext_getElem?
  intro k
  by_cases hk : k < n
  · simp [hk]
  · simp [hk]

/-- The exchange reverses the array. -/
theorem swap_tab (tN : Nat) (g : Nat → V) :
    forRange (swapStep tN) 0 ((tN + 1) / 2) ((List.range (tN + 1)).map g) =
      .ok ((List.range (tN + 1)).map fun k => g (tN - k)) := by
  obtain ⟨d, e, hd⟩ := forRange_inv (swapStep tN) (fun i d => d = (List.range (tN + 1)).map fun k =>
      if k < i ∨ tN < k + i then g (tN - k) else g k) ((tN + 1) / 2) 0 ((List.range (tN + 1)).map g)
    (tab_congr fun k hk => by rw [if_neg (by omega)]) (by
    intro i d _ hi hd
    subst hd
    refine ⟨_, by
      unfold swapStep
      rw [readAt_tab _ (by omega), Res.ok_bind, readAt_tab _ (by omega), Res.ok_bind, writeAt_tab _ _ (by omega), Res.ok_bind,
        writeAt_tab _ _ (by omega)], ?_⟩
    apply tab_congr
    intro k hk
    by_cases h1 : k = tN - i
    · subst h1
      rw [if_pos rfl, if_neg (by omega), if_pos (by omega)]
      congr 1; omega
    · rw [if_neg h1]
      by_cases h2 : k = i
      · subst h2
        rw [if_pos rfl, if_neg (by omega), if_pos (by omega)]
      · rw [if_neg h2]
        by_cases h3 : k < i ∨ tN < k + i
        · rw [if_pos h3, if_pos (by omega)]
        · rw [if_neg h3, if_neg (by omega)])
  rw [e, hd]
  congr 1
  apply tab_congr
  intro k hk
  by_cases h3 : k < 0 + (tN + 1) / 2 ∨ tN < k + (0 + (tN + 1) / 2)
  · rw [if_pos h3]
  · rw [if_neg h3]
    congr 1
    omega

end

/-! ### The loops of the design -/

theorem poles_tab (N n : Nat) (h : N ≤ n) (v : Nat → ℂ) :
    forRange (fun i p => writeAt p i (v i)) 0 N (List.replicate n (0 : ℂ)) =
      .ok ((List.range n).map fun k => if k < N then v k else 0) := by
  obtain ⟨p, e, hp⟩ := forRange_inv (fun i p => writeAt p i (v i)) (fun i p => p = (List.range n).map fun k =>
      if k < i then v k else 0) N 0 (List.replicate n (0 : ℂ)) (by
      rw [replicate_tab]; exact tab_congr fun k _ => by rw [if_neg (by omega)]) (by
    intro i p _ hi hp
    subst hp
    refine ⟨_, writeAt_tab _ _ (by omega), ?_⟩
    apply tab_congr
    intro k _
    by_cases h1 : k = i
    · subst h1; rw [if_pos rfl, if_pos (by omega)]
    · rw [if_neg h1]
      by_cases h2 : k < i
      · rw [if_pos h2, if_pos (by omega)]
      · rw [if_neg h2, if_neg (by omega)])
  rw [e, hp, Nat.zero_add]

theorem lowpass_tab (N : Nat) (z p : Nat → ℂ) (cf : ℝ) :
    lowpass N ((List.range N).map z) ((List.range N).map p) cf =
      .ok (cf ^ N / (∏ i ∈ range N, (4 - p i * cf)).re, (List.range N).map fun _ => -1,
        (List.range N).map fun k => filDiv (p k * cf)) := by
  obtain ⟨s, e, hs⟩ := forRange_inv (lowStep cf) (fun i s => s = (∏ k ∈ range i, (4 - p k * cf),
      (List.range N).map fun k => if k < i then -1 else z k,
      (List.range N).map fun k => if k < i then filDiv (p k * cf) else p k)) N 0
      (1, (List.range N).map z, (List.range N).map p) (by simp) (by
    intro i s _ hi hs
    subst hs
    refine ⟨_, by
      unfold lowStep
      rw [readAt_tab _ (by omega), Res.ok_bind, writeAt_tab _ _ (by omega), Res.ok_bind, writeAt_tab _ _ (by omega),
        Res.ok_bind, if_neg (by omega)], ?_⟩
    rw [prod_range_succ]
    congr 1
    congr 1
    · apply tab_congr
      intro k _
      by_cases h1 : k = i
      · rw [if_pos h1, if_pos (by omega)]
      · rw [if_neg h1]; exact if_congr (by omega) rfl rfl
    · apply tab_congr
      intro k _
      by_cases h1 : k = i
      · subst h1; rw [if_pos rfl, if_pos (by omega)]
      · rw [if_neg h1]; exact if_congr (by omega) rfl rfl)
  unfold lowpass
  rw [e, Res.ok_bind, hs, Nat.zero_add]
  congr 2
  congr 1
  · exact tab_congr fun k hk => if_pos hk
  · exact tab_congr fun k hk => if_pos hk

theorem highpass_tab (N : Nat) (z p : Nat → ℂ) (cf : ℝ) :
    highpass N ((List.range N).map z) ((List.range N).map p) cf =
      .ok (1 / (∏ i ∈ range N, -p i).re * (4 ^ N / (∏ i ∈ range N, (4 - cf / p i)).re), (List.range N).map fun _ => 1,
        (List.range N).map fun k => filDiv (cf / p k)) := by
  obtain ⟨s, e, hs⟩ := forRange_inv (highStep cf) (fun i s => s = (∏ k ∈ range i, -p k, ∏ k ∈ range i, (4 - cf / p k),
      (List.range N).map fun k => if k < i then 1 else z k,
      (List.range N).map fun k => if k < i then filDiv (cf / p k) else p k)) N 0
      (1, 1, (List.range N).map z, (List.range N).map p) (by simp) (by
    intro i s _ hi hs
    subst hs
    refine ⟨_, by
      unfold highStep
      rw [readAt_tab _ (by omega), Res.ok_bind, writeAt_tab _ _ (by omega), Res.ok_bind, writeAt_tab _ _ (by omega),
        Res.ok_bind, if_neg (by omega)], ?_⟩
    rw [prod_range_succ, prod_range_succ]
    congr 1
    congr 1
    congr 1
    · apply tab_congr
      intro k _
      by_cases h1 : k = i
      · rw [if_pos h1, if_pos (by omega)]
      · rw [if_neg h1]; exact if_congr (by omega) rfl rfl
    · apply tab_congr
      intro k _
      by_cases h1 : k = i
      · subst h1; rw [if_pos rfl, if_pos (by omega)]
      · rw [if_neg h1]; exact if_congr (by omega) rfl rfl)
  unfold highpass
  rw [e, Res.ok_bind, hs, Nat.zero_add]
  congr 2
  congr 1
  · exact tab_congr fun k hk => if_pos hk
  · exact tab_congr fun k hk => if_pos hk

theorem bilin_tab (n : Nat) (p : Nat → ℂ) :
    forRange bilinStep 0 n (1, (List.range n).map p) =
      .ok (∏ i ∈ range n, (4 - p i), (List.range n).map fun k => filDiv (p k)) := by
  obtain ⟨s, e, hs⟩ := forRange_inv bilinStep (fun i s => s = (∏ k ∈ range i, (4 - p k),
      (List.range n).map fun k => if k < i then filDiv (p k) else p k)) n 0 (1, (List.range n).map p) (by simp) (by
    intro i s _ hi hs
    subst hs
    refine ⟨_, by
      unfold bilinStep
      rw [readAt_tab _ (by omega), Res.ok_bind, writeAt_tab _ _ (by omega), Res.ok_bind, if_neg (by omega)], ?_⟩
    rw [prod_range_succ]
    congr 1
    apply tab_congr
    intro k _
    by_cases h1 : k = i
    · subst h1; rw [if_pos rfl, if_pos (by omega)]
    · rw [if_neg h1]; exact if_congr (by omega) rfl rfl)
  rw [e, hs, Nat.zero_add]
  congr 2
  exact tab_congr fun k hk => if_pos hk

theorem bilin2_tab (n : Nat) (z p : Nat → ℂ) :
    forRange bilinStep2 0 n (1, 1, (List.range n).map z, (List.range n).map p) =
      .ok (∏ i ∈ range n, (4 - z i), ∏ i ∈ range n, (4 - p i), (List.range n).map fun k => filDiv (z k),
        (List.range n).map fun k => filDiv (p k)) := by
  obtain ⟨s, e, hs⟩ := forRange_inv bilinStep2 (fun i s => s = (∏ k ∈ range i, (4 - z k), ∏ k ∈ range i, (4 - p k),
      (List.range n).map fun k => if k < i then filDiv (z k) else z k,
      (List.range n).map fun k => if k < i then filDiv (p k) else p k)) n 0
      (1, 1, (List.range n).map z, (List.range n).map p) (by simp) (by
    intro i s _ hi hs
    subst hs
    refine ⟨_, by
      unfold bilinStep2
      rw [readAt_tab _ (by omega), Res.ok_bind, writeAt_tab _ _ (by omega), Res.ok_bind, if_neg (by omega),
        readAt_tab _ (by omega), Res.ok_bind, writeAt_tab _ _ (by omega), Res.ok_bind, if_neg (by omega)], ?_⟩
    rw [prod_range_succ, prod_range_succ]
    congr 1
    congr 1
    congr 1
    · apply tab_congr
      intro k _
      by_cases h1 : k = i
      · subst h1; rw [if_pos rfl, if_pos (by omega)]
      · rw [if_neg h1]; exact if_congr (by omega) rfl rfl
    · apply tab_congr
      intro k _
      by_cases h1 : k = i
      · subst h1; rw [if_pos rfl, if_pos (by omega)]
      · rw [if_neg h1]; exact if_congr (by omega) rfl rfl)
  rw [e, hs, Nat.zero_add]
  congr 2
  congr 1
  congr 1
  · exact tab_congr fun k hk => if_pos hk
  · exact tab_congr fun k hk => if_pos hk

/-- The two halves written by the first loops of the band filters. -/
noncomputable def halves (N : Nat) (f g : Nat → ℂ) (k : Nat) : ℂ := if k < N then f k else g (k - N)

theorem band_tab (sq : ℂ → ℂ) (N : Nat) (c l : ℝ) (z p : Nat → ℂ) :
    forRange (bandStep sq N c l) 0 N ((List.range (2 * N)).map z, (List.range (2 * N)).map p) =
      .ok ((List.range (2 * N)).map (halves N (fun _ => 1) fun _ => -1),
        (List.range (2 * N)).map (halves N
          (fun i => p i * ((c / 2 : ℝ) : ℂ) + sq (p i * ((c / 2 : ℝ) : ℂ) * (p i * ((c / 2 : ℝ) : ℂ)) - l))
          fun i => p i * ((c / 2 : ℝ) : ℂ) - sq (p i * ((c / 2 : ℝ) : ℂ) * (p i * ((c / 2 : ℝ) : ℂ)) - l))) := by
  obtain ⟨s, e, hs⟩ := forRange_inv (bandStep sq N c l) (fun i s => s =
      ((List.range (2 * N)).map fun k => if k < i then 1 else if N ≤ k ∧ k < N + i then -1 else z k,
       (List.range (2 * N)).map fun k =>
        if k < i then p k * ((c / 2 : ℝ) : ℂ) + sq (p k * ((c / 2 : ℝ) : ℂ) * (p k * ((c / 2 : ℝ) : ℂ)) - l)
        else if N ≤ k ∧ k < N + i then
          p (k - N) * ((c / 2 : ℝ) : ℂ) - sq (p (k - N) * ((c / 2 : ℝ) : ℂ) * (p (k - N) * ((c / 2 : ℝ) : ℂ)) - l)
        else p k)) N 0 ((List.range (2 * N)).map z, (List.range (2 * N)).map p) (by
      congr 1
      · exact tab_congr fun k _ => by rw [if_neg (by omega), if_neg (by omega)]
      · exact tab_congr fun k _ => by rw [if_neg (by omega), if_neg (by omega)]) (by
    intro i s _ hi hs
    subst hs
    refine ⟨_, by
      unfold bandStep
      simp only
      rw [readAt_tab _ (by omega), Res.ok_bind, if_neg (by omega), if_neg (by omega), writeAt_tab _ _ (by omega), Res.ok_bind,
        writeAt_tab _ _ (by omega), Res.ok_bind, writeAt_tab _ _ (by omega), Res.ok_bind, writeAt_tab _ _ (by omega),
        Res.ok_bind, writeAt_tab _ _ (by omega), Res.ok_bind], ?_⟩
    congr 1
    · apply tab_congr
      intro k _
      by_cases h1 : k = N + i
      · rw [if_pos h1, if_neg (by omega), if_pos (by omega)]
      · rw [if_neg h1]
        by_cases h2 : k = i
        · rw [if_pos h2, if_pos (by omega)]
        · rw [if_neg h2]
          exact if_congr (by omega) rfl (if_congr (by omega) rfl rfl)
    · apply tab_congr
      intro k _
      by_cases h1 : k = i
      · subst h1; rw [if_pos rfl, if_pos (by omega)]
      · rw [if_neg h1]
        by_cases h2 : k = N + i
        · subst h2
          rw [if_pos rfl, if_neg (by omega), if_pos (by omega), Nat.add_sub_cancel_left]
        · rw [if_neg h2, if_neg h1]
          exact if_congr (by omega) rfl (if_congr (by omega) rfl rfl))
  rw [e, hs, Nat.zero_add]
  congr 2
  · apply tab_congr
    intro k hk
    unfold halves
    by_cases h1 : k < N
    · rw [if_pos h1, if_pos h1]
    · rw [if_neg h1, if_neg h1, if_pos (by omega)]
  · apply tab_congr
    intro k hk
    unfold halves
    by_cases h1 : k < N
    · rw [if_pos h1, if_pos h1]
    · rw [if_neg h1, if_neg h1, if_pos (by omega)]

theorem stop_tab (sq : ℂ → ℂ) (N : Nat) (c m l : ℝ) (z p : Nat → ℂ) :
    forRange (stopStep sq N c m l) 0 N ((List.range (2 * N)).map z, (List.range (2 * N)).map p) =
      .ok ((List.range (2 * N)).map (halves N (fun _ => Complex.I * m) fun _ => -(Complex.I * m)),
        (List.range (2 * N)).map (halves N
          (fun i => ((c / 2 : ℝ) : ℂ) / p i + sq (((c / 2 : ℝ) : ℂ) / p i * (((c / 2 : ℝ) : ℂ) / p i) - l))
          fun i => ((c / 2 : ℝ) : ℂ) / p i - sq (((c / 2 : ℝ) : ℂ) / p i * (((c / 2 : ℝ) : ℂ) / p i) - l))) := by
  obtain ⟨s, e, hs⟩ := forRange_inv (stopStep sq N c m l) (fun i s => s =
      ((List.range (2 * N)).map fun k => if k < i then Complex.I * m else if N ≤ k ∧ k < N + i then -(Complex.I * m) else z k,
       (List.range (2 * N)).map fun k =>
        if k < i then ((c / 2 : ℝ) : ℂ) / p k + sq (((c / 2 : ℝ) : ℂ) / p k * (((c / 2 : ℝ) : ℂ) / p k) - l)
        else if N ≤ k ∧ k < N + i then
          ((c / 2 : ℝ) : ℂ) / p (k - N) - sq (((c / 2 : ℝ) : ℂ) / p (k - N) * (((c / 2 : ℝ) : ℂ) / p (k - N)) - l)
        else p k)) N 0 ((List.range (2 * N)).map z, (List.range (2 * N)).map p) (by
      congr 1
      · exact tab_congr fun k _ => by rw [if_neg (by omega), if_neg (by omega)]
      · exact tab_congr fun k _ => by rw [if_neg (by omega), if_neg (by omega)]) (by
    intro i s _ hi hs
    subst hs
    refine ⟨_, by
      unfold stopStep
      simp only
      rw [readAt_tab _ (by omega), Res.ok_bind, if_neg (by omega), if_neg (by omega), writeAt_tab _ _ (by omega), Res.ok_bind,
        writeAt_tab _ _ (by omega), Res.ok_bind, writeAt_tab _ _ (by omega), Res.ok_bind, writeAt_tab _ _ (by omega),
        Res.ok_bind, writeAt_tab _ _ (by omega), Res.ok_bind], ?_⟩
    congr 1
    · apply tab_congr
      intro k _
      by_cases h1 : k = N + i
      · rw [if_pos h1, if_neg (by omega), if_pos (by omega)]
      · rw [if_neg h1]
        by_cases h2 : k = i
        · rw [if_pos h2, if_pos (by omega)]
        · rw [if_neg h2]
          exact if_congr (by omega) rfl (if_congr (by omega) rfl rfl)
    · apply tab_congr
      intro k _
      by_cases h1 : k = i
      · subst h1; rw [if_pos rfl, if_pos (by omega)]
      · rw [if_neg h1]
        by_cases h2 : k = N + i
        · subst h2
          rw [if_pos rfl, if_neg (by omega), if_pos (by omega), Nat.add_sub_cancel_left]
        · rw [if_neg h2, if_neg h1]
          exact if_congr (by omega) rfl (if_congr (by omega) rfl rfl))
  rw [e, hs, Nat.zero_add]
  congr 2
  · apply tab_congr
    intro k hk
    unfold halves
    by_cases h1 : k < N
    · rw [if_pos h1, if_pos h1]
    · rw [if_neg h1, if_neg h1, if_pos (by omega)]
  · apply tab_congr
    intro k hk
    unfold halves
    by_cases h1 : k < N
    · rw [if_pos h1, if_pos h1]
    · rw [if_neg h1, if_neg h1, if_pos (by omega)]

theorem halves_prod {M : Type} [CommMonoid M] (N : Nat) (f g : Nat → ℂ) (F : ℂ → M) :
    ∏ i ∈ range (2 * N), F (halves N f g i) = ∏ i ∈ range N, (F (f i) * F (g i)) := by
  rw [two_mul, prod_range_add, prod_mul_distrib]
  congr 1
  · exact prod_congr rfl fun i hi => by unfold halves; rw [if_pos (mem_range.mp hi)]
  · exact prod_congr rfl fun i hi => by unfold halves; rw [if_neg (by omega), Nat.add_sub_cancel_left]

/-! ### Coefficients as polynomials -/

/-- The value of the polynomial with the coefficients `c`, lowest first. -/
noncomputable def polyAt (c : List ℝ) (w : ℂ) : ℂ := ∑ j ∈ range c.length, ((c.getD j 0 : ℝ) : ℂ) * w ^ j

theorem polyAt_tab (n : Nat) (g : Nat → ℝ) (w : ℂ) :
    polyAt ((List.range n).map g) w = ∑ j ∈ range n, (g j : ℂ) * w ^ j := by
  unfold polyAt
  rw [List.length_map, List.length_range]
  refine sum_congr rfl fun j hj => ?_
  have := mem_range.mp hj
  simp [List.getD_eq_getElem?_getD, this]

/-- The polynomial with the given roots. -/
noncomputable def fromRoots (n : Nat) (r : Nat → ℂ) : ℂ[X] := ∏ i ∈ range n, (X - C (r i))

theorem fromRoots_natDegree (n : Nat) (r : Nat → ℂ) : (fromRoots n r).natDegree = n := by
  unfold fromRoots
  rw [natDegree_prod_of_monic _ _ fun i _ => monic_X_sub_C _]
  simp

theorem fromRoots_monic (n : Nat) (r : Nat → ℂ) : (fromRoots n r).coeff n = 1 := by
  have h : (fromRoots n r).Monic := monic_prod_of_monic _ _ fun i _ => monic_X_sub_C _
  have := h.coeff_natDegree
  rwa [fromRoots_natDegree] at this

theorem fromRoots_eval (n : Nat) (r : Nat → ℂ) (w : ℂ) : (fromRoots n r).eval w = ∏ i ∈ range n, (w - r i) := by
  unfold fromRoots
  rw [eval_prod]
  simp

/-- The polynomial has real coefficients. -/
def RealPoly (p : ℂ[X]) : Prop := p.map (starRingEnd ℂ) = p

theorem RealPoly.coeff {p : ℂ[X]} (h : RealPoly p) (j : Nat) : ((p.coeff j).re : ℂ) = p.coeff j := by
  have : (starRingEnd ℂ) (p.coeff j) = p.coeff j := by
    conv_rhs => rw [← h]
    rw [coeff_map]
  exact (Complex.conj_eq_iff_re.mp this)

theorem expand_tab (n : Nat) (hn : 1 ≤ n) (r : Nat → ℂ) :
    expandPoly Complex.re ((List.range n).map r) = .ok ((List.range (n + 1)).map fun k => ((fromRoots n r).coeff k).re) := by
  have hne : (List.range n).map r ≠ [] := by
    intro h
    have := congrArg List.length h
    simp at this
    omega
  rw [(C44_expand Complex.re _ hne).1, tab_prod]
  simp [fromRoots]

theorem numer_at (n : Nat) (r : Nat → ℂ) (h : RealPoly (fromRoots n r)) (k : ℝ) (w : ℂ) :
    polyAt (((List.range (n + 1)).map fun j => ((fromRoots n r).coeff j).re).map (· * k)) w =
      k * ∏ i ∈ range n, (w - r i) := by
  rw [List.map_map, polyAt_tab, ← fromRoots_eval, eval_eq_sum_range' (n := n + 1) (by rw [fromRoots_natDegree]; omega),
    mul_sum]
  refine sum_congr rfl fun j _ => ?_
  rw [Function.comp_apply, Complex.ofReal_mul, h.coeff]
  ring

theorem denom_at (n : Nat) (r : Nat → ℂ) (h : RealPoly (fromRoots n r)) (w : ℂ) :
    polyAt ((List.range (n + 1)).map fun j => ((fromRoots n r).coeff (n - j)).re) w = ∏ i ∈ range n, (1 - r i * w) := by
  rw [polyAt_tab]
  by_cases hw : w = 0
  · subst hw
    rw [sum_eq_single 0]
    · rw [Nat.sub_zero, h.coeff, fromRoots_monic]; simp
    · intro j _ hj; simp [hj]
    · intro h0; simp at h0
  · have e : ∏ i ∈ range n, (1 - r i * w) = w ^ n * (fromRoots n r).eval w⁻¹ := by
      rw [fromRoots_eval]
      conv_lhs => rw [show ∏ i ∈ range n, (1 - r i * w) = ∏ i ∈ range n, (w * (w⁻¹ - r i)) from
        prod_congr rfl fun i _ => by field_simp]
      rw [prod_mul_distrib]; simp
    rw [e, eval_eq_sum_range' (n := n + 1) (by rw [fromRoots_natDegree]; omega), mul_sum,
      ← sum_range_reflect]
    refine sum_congr rfl fun j hj => ?_
    have hj := mem_range.mp hj
    rw [h.coeff, show n - (n + 1 - 1 - j) = j by omega, show n + 1 - 1 - j = n - j by omega]
    rw [show w ^ n = w ^ (n - j) * w ^ j by rw [← pow_add]; congr 1; omega, inv_pow]
    have := pow_ne_zero j hw
    field_simp

/-! ### The poles -/

theorem pole_conj (N i : Nat) (h : i < N) : (starRingEnd ℂ) (pole N i) = pole N (N - 1 - i) := by
  unfold pole
  rw [map_neg, ← Complex.exp_conj]
  congr 2
  rw [map_div₀, map_mul, map_mul, Complex.conj_I, Complex.conj_ofReal, Complex.conj_ofReal, Complex.conj_ofReal]
  have e : ((N - 1 - i : Nat) : ℝ) = (N : ℝ) - 1 - i := by
    rw [show N - 1 - i = N - (1 + i) by omega, Nat.cast_sub (by omega)]; push_cast; ring
  rw [show ((1 + 2 * ((N - 1 - i : Nat) : ℝ) - N : ℝ) : ℂ) = -((1 + 2 * (i : ℝ) - N : ℝ) : ℂ) by
    rw [e]; push_cast; ring]
  ring

theorem pole_norm (N i : Nat) : ‖pole N i‖ = 1 := by
  unfold pole
  rw [norm_neg]
  have : Complex.I * (Real.pi : ℂ) * ((1 + 2 * (i : ℝ) - N : ℝ) : ℂ) / ((2 * N : ℝ) : ℂ) =
      ((Real.pi * (1 + 2 * (i : ℝ) - N) / (2 * N) : ℝ) : ℂ) * Complex.I := by
    push_cast; ring
  rw [this, Complex.norm_exp_ofReal_mul_I]

theorem pole_ne (N i : Nat) : pole N i ≠ 0 := by
  intro h
  have := pole_norm N i
  rw [h, norm_zero] at this
  exact zero_ne_one this

theorem pole_inv (N i : Nat) (h : i < N) : (pole N i)⁻¹ = pole N (N - 1 - i) := by
  rw [Complex.inv_def, pole_conj N i h, Complex.normSq_eq_norm_sq, pole_norm]
  simp

/-- The poles lie in the left half plane. -/
theorem pole_re (N i : Nat) (h : i < N) : (pole N i).re < 0 := by
  have e : pole N i = -Complex.exp (((Real.pi * (1 + 2 * (i : ℝ) - N) / (2 * N) : ℝ) : ℂ) * Complex.I) := by
    unfold pole
    congr 2
    push_cast; ring
  rw [e, Complex.neg_re, Complex.exp_ofReal_mul_I_re, neg_lt_zero]
  have hN : (0 : ℝ) < N := by exact_mod_cast (by omega : 0 < N)
  have hi : (i : ℝ) + 1 ≤ N := by exact_mod_cast h
  have hi0 : (0 : ℝ) ≤ i := Nat.cast_nonneg i
  have hpi := Real.pi_pos
  apply Real.cos_pos_of_mem_Ioo
  constructor
  · rw [lt_div_iff₀ (by positivity)]
    nlinarith
  · rw [div_lt_iff₀ (by positivity)]
    nlinarith

/-- `x^N - y^N` as a product over the powers of a primitive root. -/
theorem prod_sub_root {N : Nat} (hN : 0 < N) {ζ : ℂ} (h : IsPrimitiveRoot ζ N) (x y : ℂ) :
    ∏ i ∈ range N, (x - ζ ^ i * y) = x ^ N - y ^ N := by
  rw [h.pow_sub_pow_eq_prod_sub_mul x y hN]
  have : NeZero N := ⟨by omega⟩
  have himg : nthRootsFinset N (1 : ℂ) = (range N).image (fun i => ζ ^ i) := by
    ext r
    rw [mem_nthRootsFinset hN, mem_image]
    constructor
    · intro hr
      obtain ⟨i, hi, e⟩ := h.eq_pow_of_pow_eq_one hr
      exact ⟨i, mem_range.mpr hi, e⟩
    · rintro ⟨i, _, rfl⟩
      rw [← pow_mul, mul_comm, pow_mul, h.pow_eq_one, one_pow]
  rw [himg, prod_image]
  intro i hi j hj e
  exact h.pow_inj (mem_range.mp hi) (mem_range.mp hj) e

/-- The Butterworth product. -/
theorem butter (N : Nat) (hN : 0 < N) (c om : ℝ) :
    ‖∏ i ∈ range N, (Complex.I * om - c * pole N i)‖ ^ 2 = om ^ (2 * N) + c ^ (2 * N) := by
  have hcast : ∀ z : ℂ, ((‖z‖ ^ 2 : ℝ) : ℂ) = z * (starRingEnd ℂ) z := by
    intro z; rw [Complex.mul_conj, Complex.normSq_eq_norm_sq]
  apply Complex.ofReal_injective
  rw [hcast, map_prod]
  have hc : ∏ i ∈ range N, (starRingEnd ℂ) (Complex.I * om - c * pole N i) =
      ∏ i ∈ range N, (-(Complex.I * om) - c * pole N i) := by
    rw [← prod_range_reflect]
    refine prod_congr rfl fun i hi => ?_
    have hi := mem_range.mp hi
    rw [map_sub, map_mul, map_mul, Complex.conj_I, Complex.conj_ofReal, Complex.conj_ofReal, pole_conj N _ (by omega)]
    rw [show N - 1 - (N - 1 - i) = i by omega]
    ring
  rw [hc, ← prod_mul_distrib]
  have hNc : ((N : ℝ) : ℂ) ≠ 0 := by exact_mod_cast (by omega : N ≠ 0)
  have hfac : ∀ i ∈ range N, (Complex.I * om - c * pole N i) * (-(Complex.I * om) - c * pole N i) =
      (om : ℂ) ^ 2 - Complex.exp (2 * Real.pi * Complex.I / N) ^ i *
        ((c : ℂ) ^ 2 * Complex.exp (Real.pi * Complex.I / N)) := by
    intro i _
    have hp : pole N i ^ 2 = -(Complex.exp (2 * Real.pi * Complex.I / N) ^ i * Complex.exp (Real.pi * Complex.I / N)) := by
      unfold pole
      rw [neg_sq, ← Complex.exp_nat_mul, ← Complex.exp_nat_mul, ← Complex.exp_add]
      rw [show ((2 : ℕ) : ℂ) * (Complex.I * Real.pi * ((1 + 2 * (i : ℝ) - N : ℝ) : ℂ) / ((2 * N : ℝ) : ℂ)) =
        (i : ℂ) * (2 * Real.pi * Complex.I / N) + Real.pi * Complex.I / N - Real.pi * Complex.I by
          push_cast
          have : (N : ℂ) ≠ 0 := by exact_mod_cast (by omega : N ≠ 0)
          field_simp
          ring]
      rw [Complex.exp_sub, Complex.exp_pi_mul_I]
      ring
    linear_combination (c : ℂ) ^ 2 * hp - (om : ℂ) ^ 2 * Complex.I_sq
  rw [prod_congr rfl hfac, prod_sub_root hN (Complex.isPrimitiveRoot_exp N (by omega))]
  rw [mul_pow, ← Complex.exp_nat_mul]
  rw [show (N : ℂ) * (Real.pi * Complex.I / N) = Real.pi * Complex.I by
    have : (N : ℂ) ≠ 0 := by exact_mod_cast (by omega : N ≠ 0)
    field_simp]
  rw [Complex.exp_pi_mul_I]
  push_cast
  ring

/-- The negated poles multiply to one. -/
theorem poles_prod (N : Nat) : ∏ i ∈ range N, -pole N i = 1 := by
  by_cases hN : N = 0
  · subst hN; simp
  unfold pole
  simp only [neg_neg]
  rw [← Complex.exp_sum]
  rw [show ∑ i ∈ range N, Complex.I * (Real.pi : ℂ) * ((1 + 2 * (i : ℝ) - N : ℝ) : ℂ) / ((2 * N : ℝ) : ℂ) = 0 from ?_,
    Complex.exp_zero]
  simp only [div_eq_mul_inv]
  rw [← sum_mul, ← mul_sum, mul_eq_zero, mul_eq_zero]
  refine Or.inl (Or.inr ?_)
  have h := Finset.sum_range_id_mul_two N
  have h2 : (∑ i ∈ range N, (i : ℂ)) * 2 = N * (N - 1) := by
    have := congrArg (Nat.cast : ℕ → ℂ) h
    push_cast at this
    rw [this, Nat.cast_sub (by omega)]
    push_cast; ring
  push_cast
  rw [sum_sub_distrib, sum_add_distrib, ← mul_sum]
  simp only [sum_const, card_range, nsmul_eq_mul, mul_one]
  linear_combination h2

end Verif.Signal
