import Verif.Signal.Filter
import Mathlib.Algebra.BigOperators.Intervals
import Mathlib.Algebra.BigOperators.Ring.Finset
import Mathlib.Tactic.Ring
import Mathlib.Tactic.LinearCombination
import Mathlib.Tactic.FieldSimp
import Mathlib.Algebra.Field.Rat

/-!
C45 (difference equation and linearity of the recursive filter) and C58 (constants).
-/

namespace Verif.Signal

variable {K : Type}

/-- A list as a signal: zero outside. -/
def sig [Zero K] (l : List K) (i : Nat) : K := l.getD i 0

theorem sig_get [Zero K] {l : List K} {i : Nat} (h : i < l.length) : l[i]? = some (sig l i) := by
  unfold sig
  rw [List.getD_eq_getElem?_getD, List.getElem?_eq_getElem h]
  rfl

theorem sig_of [Zero K] {l : List K} {i : Nat} {v : K} (h : l[i]? = some v) : sig l i = v := by
  unfold sig
  rw [List.getD_eq_getElem?_getD, h]
  rfl

theorem sig_set_self [Zero K] {l : List K} {i : Nat} (v : K) (h : i < l.length) : sig (l.set i v) i = v :=
  sig_of (List.getElem?_set_self h)

theorem sig_set_ne [Zero K] {l : List K} {i j : Nat} (v : K) (h : i ≠ j) : sig (l.set i v) j = sig l j := by
  unfold sig
  rw [List.getD_eq_getElem?_getD, List.getD_eq_getElem?_getD, List.getElem?_set_ne h]

theorem readAt_sig [Zero K] {l : List K} {i : Nat} (h : i < l.length) : readAt l i = .ok (sig l i) := readAt_some (sig_get h)

/-- The difference equation of a filter of order `N` with numerator `b` and denominator `a` (leading coefficient one) at
sample `i`, with `z` added to the first `N` samples. -/
def Diff [CommRing K] (N : Nat) (b a x z y : Nat → K) (i : Nat) : Prop :=
  y i = b 0 * x i + (if i < N then z i else 0) +
    ∑ j ∈ Finset.range (min i N), (b (j + 1) * x (i - (j + 1)) - a (j + 1) * y (i - (j + 1)))

theorem iir_inner [CommRing K] (b a x : List K) (i m : Nat) (hmi : m ≤ i) (hb : m < b.length) (ha : m < a.length)
    (hx : i < x.length) (y : List K) (hy : i < y.length) :
    forRange (iirStep b a x i) 1 m y = .ok (y.set i (sig y i +
      ∑ j ∈ Finset.range m, (sig b (j + 1) * sig x (i - (j + 1)) - sig a (j + 1) * sig y (i - (j + 1))))) := by
  obtain ⟨y', e, h⟩ := forRange_inv (iirStep b a x i) (fun k y' => y' = y.set i (sig y i +
      ∑ j ∈ Finset.range (k - 1), (sig b (j + 1) * sig x (i - (j + 1)) - sig a (j + 1) * sig y (i - (j + 1))))) m 1 y
    (by
      simp only [Nat.sub_self, Finset.range_zero, Finset.sum_empty, add_zero]
      apply List.ext_getElem?
      intro k
      by_cases hk : i = k
      · subst hk; rw [List.getElem?_set_self hy, sig_get hy]
      · rw [List.getElem?_set_ne hk]) (by
    intro j s h1 h2 hs
    have hsl : s.length = y.length := by rw [hs]; simp
    have hsi : sig s i = sig y i +
        ∑ j ∈ Finset.range (j - 1), (sig b (j + 1) * sig x (i - (j + 1)) - sig a (j + 1) * sig y (i - (j + 1))) := by
      rw [hs]; exact sig_set_self _ hy
    have hsj : sig s (i - j) = sig y (i - j) := by rw [hs]; exact sig_set_ne _ (by omega)
    refine ⟨s.set i (sig s i + (sig b j * sig x (i - j) - sig a j * sig s (i - j))), ?_, ?_⟩
    · unfold iirStep
      rw [readAt_sig (by omega), Res.ok_bind, readAt_sig (by omega), Res.ok_bind, readAt_sig (by omega), Res.ok_bind,
        readAt_sig (by omega), Res.ok_bind, readAt_sig (by omega), Res.ok_bind, writeAt_ok _ (by omega)]
    · rw [hsi, hsj, hs, List.set_set]
      obtain ⟨j, rfl⟩ : ∃ k, j = k + 1 := ⟨j - 1, by omega⟩
      rw [Nat.add_sub_cancel, Nat.add_sub_cancel, Finset.sum_range_succ, add_assoc])
  rw [e, h, Nat.add_sub_cancel_left]

/-- C45 (partial). For every order `N ≥ 1`, all coefficients, every signal of at least `N` samples and all initial
conditions the output satisfies the difference equation at every sample, with the initial conditions added to the first
`N` samples, whatever was in the output array; all accesses stay inside the arrays (`N + 1` coefficients, `N` initial
conditions, `ns` samples).

The full claim is for every order and signal: `C45_zero_refuted`, `C45_short_refuted`. -/
theorem C45_difference_partial [CommRing K] (N ns : Nat) (b a x y z : List K) (hN : 1 ≤ N) (hns : N ≤ ns)
    (hb : b.length = N + 1) (ha : a.length = N + 1) (hx : x.length = ns) (hy : y.length = ns) (hz : z.length = N) :
    ∃ out, iir N ns b a x y z = .ok out ∧ out.length = ns ∧
      ∀ i, i < ns → Diff N (sig b) (sig a) (sig x) (sig z) (sig out) i := by
  -- the equation at `i` only looks at samples up to `i`
  have keep : ∀ (s : List K) (k v i), i < k → Diff N (sig b) (sig a) (sig x) (sig z) (sig s) i →
      Diff N (sig b) (sig a) (sig x) (sig z) (sig (s.set k v)) i := by
    intro s k v i hik h
    unfold Diff at h ⊢
    rw [sig_set_ne _ (by omega), h]
    congr 1
    apply Finset.sum_congr rfl
    intro j _
    rw [sig_set_ne _ (by omega)]
  unfold iir
  rw [readAt_sig (by omega), Res.ok_bind, readAt_sig (by omega), Res.ok_bind, readAt_sig (by omega), Res.ok_bind,
    writeAt_ok _ (by omega), Res.ok_bind]
  -- the first samples
  obtain ⟨y1, e1, l1, d1⟩ := forRange_inv (iirHead b a x z)
    (fun k s => s.length = ns ∧ ∀ i, i < k → Diff N (sig b) (sig a) (sig x) (sig z) (sig s) i) (N - 1) 1
    (y.set 0 (sig b 0 * sig x 0 + sig z 0)) ⟨by simpa using hy, by
      intro i hi
      obtain rfl : i = 0 := by omega
      unfold Diff
      rw [sig_set_self _ (by omega), if_pos (by omega)]
      simp⟩ (by
    intro i s h1 h2 ⟨hl, hd⟩
    refine ⟨(s.set i (sig b 0 * sig x i + sig z i)).set i (sig (s.set i (sig b 0 * sig x i + sig z i)) i +
        ∑ j ∈ Finset.range i, (sig b (j + 1) * sig x (i - (j + 1)) -
          sig a (j + 1) * sig (s.set i (sig b 0 * sig x i + sig z i)) (i - (j + 1)))),
      ?_, ?_, ?_⟩
    · unfold iirHead
      rw [readAt_sig (by omega), Res.ok_bind, readAt_sig (by omega), Res.ok_bind, readAt_sig (by omega), Res.ok_bind,
        writeAt_ok _ (by omega), Res.ok_bind, iir_inner b a x i i le_rfl (by omega) (by omega) (by omega) _ (by simp; omega)]
    · simpa using hl
    · intro k hk
      by_cases hki : k = i
      · subst hki
        unfold Diff
        rw [sig_set_self _ (by simp; omega), sig_set_self _ (by omega), if_pos (by omega), Nat.min_eq_left (by omega)]
        congr 1
        apply Finset.sum_congr rfl
        intro j hj
        rw [Finset.mem_range] at hj
        rw [sig_set_ne (l := s.set _ _) _ (by omega)]
      · exact keep _ _ _ _ (by omega) (keep _ _ _ _ (by omega) (hd k (by omega))))
  rw [e1, Res.ok_bind]
  rw [show 1 + (N - 1) = N by omega] at d1
  -- the others
  obtain ⟨y2, e2, l2, d2⟩ := forRange_inv (iirTail N b a x)
    (fun k s => s.length = ns ∧ ∀ i, i < k → Diff N (sig b) (sig a) (sig x) (sig z) (sig s) i) (ns - N) N
    y1 ⟨l1, d1⟩ (by
    intro i s h1 h2 ⟨hl, hd⟩
    refine ⟨(s.set i (sig b 0 * sig x i)).set i (sig (s.set i (sig b 0 * sig x i)) i +
        ∑ j ∈ Finset.range N, (sig b (j + 1) * sig x (i - (j + 1)) -
          sig a (j + 1) * sig (s.set i (sig b 0 * sig x i)) (i - (j + 1)))),
      ?_, ?_, ?_⟩
    · unfold iirTail
      rw [readAt_sig (by omega), Res.ok_bind, readAt_sig (by omega), Res.ok_bind,
        writeAt_ok _ (by omega), Res.ok_bind, iir_inner b a x i N (by omega) (by omega) (by omega) (by omega) _ (by simp; omega)]
    · simpa using hl
    · intro k hk
      by_cases hki : k = i
      · subst hki
        unfold Diff
        rw [sig_set_self _ (by simp; omega), sig_set_self _ (by omega), if_neg (by omega), Nat.min_eq_right (by omega), add_zero]
        congr 1
        apply Finset.sum_congr rfl
        intro j hj
        rw [Finset.mem_range] at hj
        rw [sig_set_ne (l := s.set _ _) _ (by omega)]
      · exact keep _ _ _ _ (by omega) (keep _ _ _ _ (by omega) (hd k (by omega))))
  rw [show N + (ns - N) = ns by omega] at d2
  exact ⟨y2, e2, l2, d2⟩

/-- A filter of order one: each output is the input plus twice the previous output. -/
example : iir 1 4 [1, 0] [1, -2] [1, 0, 3, 0] [9, 9, 9, 9] ([5] : List Int) = .ok [6, 12, 27, 54] := by decide

/-- The difference equation determines the output. -/
theorem diff_unique [CommRing K] (N : Nat) (b a x z y y' : Nat → K) (n : Nat) (h : ∀ i, i < n → Diff N b a x z y i)
    (h' : ∀ i, i < n → Diff N b a x z y' i) : ∀ i, i < n → y i = y' i := by
  intro i
  induction i using Nat.strongRecOn with
  | _ i ih =>
    intro hi
    rw [h i hi, h' i hi]
    congr 1
    apply Finset.sum_congr rfl
    intro j hj
    rw [Finset.mem_range] at hj
    rw [ih (i - (j + 1)) (by omega) (by omega)]

/-- Linear combination of two lists of the same length. -/
def comb [CommRing K] (α β : K) (u v : List K) : List K := List.zipWith (fun p q => α * p + β * q) u v

theorem sig_comb [CommRing K] (α β : K) (u v : List K) (h : u.length = v.length) (i : Nat) :
    sig (comb α β u v) i = α * sig u i + β * sig v i := by
  unfold sig comb
  by_cases hi : i < u.length
  · simp [List.getD_eq_getElem?_getD, List.getElem?_zipWith, List.getElem?_eq_getElem hi, List.getElem?_eq_getElem (h ▸ hi)]
  · have h1 : u[i]? = none := List.getElem?_eq_none (by omega)
    have h2 : v[i]? = none := List.getElem?_eq_none (by omega)
    simp [List.getD_eq_getElem?_getD, List.getElem?_zipWith, h1, h2]

/-- C45, linearity (partial, same restriction): filtering a linear combination of signals with the same combination of
initial conditions gives that combination of the outputs. -/
theorem C45_linear_partial [CommRing K] (N ns : Nat) (b a x x' y z z' : List K) (α β : K) (hN : 1 ≤ N) (hns : N ≤ ns)
    (hb : b.length = N + 1) (ha : a.length = N + 1) (hx : x.length = ns) (hx' : x'.length = ns) (hy : y.length = ns)
    (hz : z.length = N) (hz' : z'.length = N) :
    ∃ out out', iir N ns b a x y z = .ok out ∧ iir N ns b a x' y z' = .ok out' ∧
      iir N ns b a (comb α β x x') y (comb α β z z') = .ok (comb α β out out') := by
  obtain ⟨o1, e1, l1, d1⟩ := C45_difference_partial N ns b a x y z hN hns hb ha hx hy hz
  obtain ⟨o2, e2, l2, d2⟩ := C45_difference_partial N ns b a x' y z' hN hns hb ha hx' hy hz'
  obtain ⟨o3, e3, l3, d3⟩ := C45_difference_partial N ns b a (comb α β x x') y (comb α β z z') hN hns hb ha
    (by simp [comb, hx, hx']) hy (by simp [comb, hz, hz'])
  refine ⟨o1, o2, e1, e2, ?_⟩
  rw [e3]
  congr 1
  have hu := diff_unique N (sig b) (sig a) (sig (comb α β x x')) (sig (comb α β z z')) (sig o3) (sig (comb α β o1 o2)) ns d3 (by
    intro i hi
    have h1 := d1 i hi
    have h2 := d2 i hi
    unfold Diff at h1 h2 ⊢
    simp only [sig_comb α β x x' (by omega), sig_comb α β z z' (by omega), sig_comb α β o1 o2 (by omega)]
    rw [h1, h2]
    have hsum : ∀ m : Nat, (∑ j ∈ Finset.range m, (sig b (j + 1) * (α * sig x (i - (j + 1)) + β * sig x' (i - (j + 1))) -
        sig a (j + 1) * (α * sig o1 (i - (j + 1)) + β * sig o2 (i - (j + 1))))) =
        α * (∑ j ∈ Finset.range m, (sig b (j + 1) * sig x (i - (j + 1)) - sig a (j + 1) * sig o1 (i - (j + 1)))) +
        β * (∑ j ∈ Finset.range m, (sig b (j + 1) * sig x' (i - (j + 1)) - sig a (j + 1) * sig o2 (i - (j + 1)))) := by
      intro m
      rw [Finset.mul_sum, Finset.mul_sum, ← Finset.sum_add_distrib]
      apply Finset.sum_congr rfl
      intro j _
      ring
    rw [hsum]
    split
    · ring
    · ring)
  apply List.ext_getElem?
  intro i
  by_cases hi : i < ns
  · rw [sig_get (by omega), sig_get (by simp [comb]; omega), hu i hi]
  · rw [List.getElem?_eq_none (by omega), List.getElem?_eq_none (by simp [comb]; omega)]

example : iir 1 2 [1, 1] [1, -2] (comb 2 3 [1, 0] [0, 1]) [0, 0] (comb 2 3 [1] ([4] : List Int)) =
    .ok (comb 2 3 [2, 5] [4, 9]) := by decide

/-- C45 fails for every filter of order zero: the first initial condition is read although there is none. -/
theorem C45_zero_refuted [CommRing K] (b0 a0 : K) (x y : List K) (ns : Nat) (hx : x ≠ []) :
    iir 0 ns [b0] [a0] x y [] = .ub := by
  unfold iir
  rw [readAt_ok (by simp), Res.ok_bind, readAt_ok (List.length_pos_of_ne_nil hx), Res.ok_bind]
  rfl

example : ([1] : List Int) ≠ [] := by decide

/-- C45 fails for every signal shorter than the order: samples behind it are read. -/
theorem C45_short_refuted [CommRing K] (N ns : Nat) (b a x y z : List K) (hns : 1 ≤ ns) (hN : ns < N)
    (hb : b.length = N + 1) (ha : a.length = N + 1) (hx : x.length = ns) (hy : y.length = ns) (hz : z.length = N) :
    iir N ns b a x y z = .ub := by
  unfold iir
  rw [readAt_sig (by omega), Res.ok_bind, readAt_sig (by omega), Res.ok_bind, readAt_sig (by omega), Res.ok_bind,
    writeAt_ok _ (by omega), Res.ok_bind]
  obtain ⟨y1, e1, l1⟩ := forRange_inv (iirHead b a x z) (fun _ s => s.length = ns) (ns - 1) 1
    (y.set 0 (sig b 0 * sig x 0 + sig z 0)) (by simpa using hy) (by
    intro i s h1 h2 hl
    refine ⟨(s.set i (sig b 0 * sig x i + sig z i)).set i (sig (s.set i (sig b 0 * sig x i + sig z i)) i +
        ∑ j ∈ Finset.range i, (sig b (j + 1) * sig x (i - (j + 1)) -
          sig a (j + 1) * sig (s.set i (sig b 0 * sig x i + sig z i)) (i - (j + 1)))),
      ?_, ?_⟩
    · unfold iirHead
      rw [readAt_sig (by omega), Res.ok_bind, readAt_sig (by omega), Res.ok_bind, readAt_sig (by omega), Res.ok_bind,
        writeAt_ok _ (by omega), Res.ok_bind, iir_inner b a x i i le_rfl (by omega) (by omega) (by omega) _ (by simp; omega)]
    · simpa using hl)
  rw [show N - 1 = (ns - 1) + ((N - ns - 1) + 1) by omega, forRange_split _ _ _ _ _ _ e1, forRange_succ]
  unfold iirHead
  rw [readAt_sig (by omega), Res.ok_bind, readAt_ub (by omega)]
  rfl

example : iir 2 1 [1, 1, 1] [1, 0, 0] [1] [0] ([0, 0] : List Int) = .ub := by decide

end Verif.Signal
