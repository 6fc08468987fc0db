import Verif.Props.IIR
import Mathlib.Tactic.NormNum

/-!
C43 (accesses of the temporal filter) and C58 (constants).
-/

namespace Verif.Signal

variable {K : Type}

/-! ### Copies -/

theorem copyLoop_spec [Zero K] (n : Nat) (src : List K) (start : Nat) (dst : List K) (d0 : Nat)
    (hs : start + n ≤ src.length) (hd : d0 + n ≤ dst.length) (h1 : start + n < 2 ^ 64) (h2 : d0 + n < 2 ^ 64) :
    ∃ out, copyLoop n src start dst d0 = .ok out ∧ out.length = dst.length ∧
      ∀ k, sig out k = if d0 ≤ k ∧ k < d0 + n then sig src (start + (k - d0)) else sig dst k := by
  unfold copyLoop
  obtain ⟨out, e, hl, h⟩ := forRange_inv (fun i dst => do
      let v ← readAt src (add64 start i)
      writeAt dst (add64 d0 i) v) (fun i out => out.length = dst.length ∧
        ∀ k, sig out k = if d0 ≤ k ∧ k < d0 + i then sig src (start + (k - d0)) else sig dst k) n 0 dst
    ⟨rfl, by intro k; rw [if_neg (by omega)]⟩ (by
    intro i s _ hi ⟨hl, h⟩
    refine ⟨s.set (d0 + i) (sig src (start + i)), ?_, by simpa using hl, ?_⟩
    · rw [add64_eq (a := start) (by omega), add64_eq (a := d0) (by omega), readAt_sig (by omega), Res.ok_bind,
        writeAt_ok _ (by omega)]
    · intro k
      by_cases hk : k = d0 + i
      · subst hk
        rw [sig_set_self _ (by omega), if_pos (by omega), Nat.add_sub_cancel_left]
      · rw [sig_set_ne _ (by omega), h k]
        by_cases hc : d0 ≤ k ∧ k < d0 + i
        · rw [if_pos hc, if_pos (by omega)]
        · rw [if_neg hc, if_neg (by omega)])
  exact ⟨out, e, hl, by simpa using h⟩

/-- A copy from places outside the source is undefined behaviour. -/
theorem copyLoop_ub [Zero K] (n : Nat) (src : List K) (start : Nat) (dst : List K) (d0 m : Nat) (hm : m < n)
    (hs : src.length ≤ add64 start m) : copyLoop n src start dst d0 = .ub := by
  unfold copyLoop
  refine forRange_ub _ (fun _ => True) m n 0 dst trivial ?_ (Nat.zero_le _) (by omega) ?_
  · intro j s _ _ _
    unfold readAt
    cases src[add64 start j]? with
    | none => exact Or.inl rfl
    | some v =>
      simp only [Res.ok_bind]
      unfold writeAt
      split
      · exact Or.inr ⟨_, rfl, trivial⟩
      · exact Or.inl rfl
  · intro s _
    rw [readAt_ub hs]
    rfl

/-! ### Padding -/

/-- The padded trace when all padding values can be read: `L k` before the trace, then the trace, then the values `R`
from the fourth on, then three zeros. -/
theorem padTrace_spec [Zero K] (p : Pad) (nw : Nat) (trc : List K) (m : Nat) (L R : Nat → K) (hnw : 1 ≤ nw)
    (hl : trc.length = nw) (h64 : nw + 6 * (m + 1) < 2 ^ 64)
    (hL : ∀ i, i < 3 * (m + 1) → padding p trc (3 * (m + 1)) nw i = .ok (L i))
    (hR : ∀ i, i < 3 * (m + 1) → padding p trc (3 * (m + 1)) (nw - 1) (i + 3 * m + nw) = .ok (R i)) :
    ∃ out, padTrace p nw trc m = .ok out ∧ out.length = nw + 6 * (m + 1) ∧
      ∀ k, k < nw + 6 * (m + 1) → sig out k =
        if k < 3 * (m + 1) then L k
        else if k < 3 * (m + 1) + nw then sig trc (k - 3 * (m + 1))
        else if k < 6 * m + 3 + nw then R (k - (3 * m + nw)) else 0 := by
  unfold padTrace
  obtain ⟨w, e1, l1, s1⟩ := forRange_inv (padStep p nw trc m) (fun i w => w.length = nw + 6 * (m + 1) ∧
      ∀ k, sig w k = if k < i then L k else if 3 * m + nw ≤ k ∧ k < 3 * m + nw + i then R (k - (3 * m + nw)) else 0)
    (3 * (m + 1)) 0 (List.replicate (nw + 6 * (m + 1)) (0 : K)) ⟨by simp, by
      intro k
      rw [if_neg (by omega), if_neg (by omega)]
      unfold sig
      rw [List.getD_eq_getElem?_getD]
      cases h : (List.replicate (nw + 6 * (m + 1)) (0 : K))[k]? with
      | none => rfl
      | some v =>
        have := List.mem_of_getElem? h
        rw [List.mem_replicate] at this
        simpa using this.2⟩ (by
    intro i w _ hi ⟨hwl, hw⟩
    refine ⟨(w.set i (L i)).set (i + 3 * m + nw) (R i), ?_, by simpa using hwl, ?_⟩
    · unfold padStep
      rw [hL i (by omega), Res.ok_bind, writeAt_ok _ (by omega), Res.ok_bind, hR i (by omega), Res.ok_bind,
        writeAt_ok _ (by simp; omega)]
    · intro k
      by_cases hk : k = i + 3 * m + nw
      · subst hk
        rw [sig_set_self _ (by simp; omega), if_neg (by omega), if_pos (by omega)]
        congr 1
        omega
      · rw [sig_set_ne _ (by omega)]
        by_cases hk2 : k = i
        · subst hk2
          rw [sig_set_self _ (by omega), if_pos (by omega)]
        · rw [sig_set_ne _ (by omega), hw k]
          by_cases h1 : k < i
          · rw [if_pos h1, if_pos (by omega)]
          · rw [if_neg h1, if_neg (show ¬ k < i + 1 by omega)]
            by_cases h2 : 3 * m + nw ≤ k ∧ k < 3 * m + nw + i
            · rw [if_pos h2, if_pos (by omega)]
            · rw [if_neg h2, if_neg (by omega)])
  rw [e1, Res.ok_bind]
  obtain ⟨out, e2, l2, s2⟩ := copyLoop_spec nw trc 0 w (3 * (m + 1)) (by omega) (by omega) (by omega) (by omega)
  refine ⟨out, e2, by omega, ?_⟩
  intro k hk
  rw [s2 k, s1 k]
  by_cases h1 : k < 3 * (m + 1)
  · rw [if_neg (by omega), if_pos (by omega), if_pos h1]
  · rw [if_neg h1]
    by_cases h2 : k < 3 * (m + 1) + nw
    · rw [if_pos (by omega), if_pos h2, Nat.zero_add]
    · rw [if_neg (by omega), if_neg h2, if_neg (by omega)]
      by_cases h3 : k < 6 * m + 3 + nw
      · rw [if_pos (by omega), if_pos h3]
      · rw [if_neg (by omega), if_neg h3]

/-! ### Initial conditions -/

theorem startZ_spec [Field K] (m : Nat) (b a : List K) (hm : 1 ≤ m) (hb : b.length = m + 1) (ha : a.length = m + 1) :
    ∃ zi, startZ m b a = .ok zi ∧ zi.length = m ∧ ∀ i, i < m → sig zi i =
      (1 + ∑ j ∈ Finset.range i, sig a (j + 1)) *
        ((∑ j ∈ Finset.range m, (sig b (j + 1) - sig a (j + 1) * sig b 0)) / (1 + ∑ j ∈ Finset.range m, sig a (j + 1))) -
      ∑ j ∈ Finset.range i, (sig b (j + 1) - sig a (j + 1) * sig b 0) := by
  unfold startZ
  obtain ⟨s, e1, hs⟩ := forRange_inv (sumStep b a) (fun k s =>
      s = (∑ j ∈ Finset.range (k - 1), (sig b (j + 1) - sig a (j + 1) * sig b 0), 1 + ∑ j ∈ Finset.range (k - 1), sig a (j + 1)))
    m 1 (0, 1) (by simp) (by
    intro k s h1 h2 hs
    refine ⟨_, by
      unfold sumStep
      rw [readAt_sig (by omega), Res.ok_bind, readAt_sig (by omega), Res.ok_bind, readAt_sig (by omega), Res.ok_bind], ?_⟩
    obtain ⟨k, rfl⟩ : ∃ i, k = i + 1 := ⟨k - 1, by omega⟩
    rw [hs, Nat.add_sub_cancel, Nat.add_sub_cancel, Finset.sum_range_succ, Finset.sum_range_succ]
    simp only [add_assoc])
  rw [e1, Res.ok_bind, writeAt_ok _ (by simp; omega), Res.ok_bind, hs]
  rw [Nat.add_sub_cancel_left]
  generalize hz : (∑ j ∈ Finset.range m, (sig b (j + 1) - sig a (j + 1) * sig b 0)) /
    (1 + ∑ j ∈ Finset.range m, sig a (j + 1)) = z0
  obtain ⟨t, e2, h1, h2, h3, h4⟩ := forRange_inv (ziStep b a) (fun k t =>
      t.1 = 1 + ∑ j ∈ Finset.range (k - 1), sig a (j + 1) ∧
      t.2.1 = ∑ j ∈ Finset.range (k - 1), (sig b (j + 1) - sig a (j + 1) * sig b 0) ∧ t.2.2.length = m ∧
      ∀ i, i < k → sig t.2.2 i = (1 + ∑ j ∈ Finset.range i, sig a (j + 1)) * z0 -
        ∑ j ∈ Finset.range i, (sig b (j + 1) - sig a (j + 1) * sig b 0)) (m - 1) 1
    (1, 0, (List.replicate m (0 : K)).set 0 z0) ⟨by simp, by simp, by simp, by
      intro i hi
      obtain rfl : i = 0 := by omega
      rw [sig_set_self _ (by simp; omega)]
      simp⟩ (by
    intro k t hk1 hk2 ⟨h1, h2, h3, h4⟩
    refine ⟨(t.1 + sig a k, t.2.1 + (sig b k - sig a k * sig b 0), t.2.2.set k ((t.1 + sig a k) * sig t.2.2 0 -
      (t.2.1 + (sig b k - sig a k * sig b 0)))), ?_, ?_, ?_, by simpa using h3, ?_⟩
    · unfold ziStep
      rw [readAt_sig (by omega), Res.ok_bind, readAt_sig (by omega), Res.ok_bind, readAt_sig (by omega), Res.ok_bind,
        readAt_sig (by omega), Res.ok_bind, writeAt_ok _ (by omega), Res.ok_bind]
    · obtain ⟨k, rfl⟩ : ∃ i, k = i + 1 := ⟨k - 1, by omega⟩
      simp only
      rw [h1, Nat.add_sub_cancel, Nat.add_sub_cancel, Finset.sum_range_succ, add_assoc]
    · obtain ⟨k, rfl⟩ : ∃ i, k = i + 1 := ⟨k - 1, by omega⟩
      simp only
      rw [h2, Nat.add_sub_cancel, Nat.add_sub_cancel, Finset.sum_range_succ]
    · intro i hi
      simp only
      by_cases hik : i = k
      · subst hik
        rw [sig_set_self _ (by omega), h4 0 (by omega), h1, h2]
        obtain ⟨i, rfl⟩ : ∃ j, i = j + 1 := ⟨i - 1, by omega⟩
        rw [Nat.add_sub_cancel, Finset.sum_range_succ, Finset.sum_range_succ]
        simp only [Finset.range_zero, Finset.sum_empty, add_zero, one_mul, sub_zero, add_assoc]
      · rw [sig_set_ne _ (by omega)]
        exact h4 i (by omega))
  rw [e2, Res.ok_bind]
  exact ⟨t.2.2, rfl, h3, fun i hi => h4 i (by omega)⟩

theorem scaleZ_spec [Zero K] [Mul K] (m : Nat) (zi : List K) (f : K) (hl : zi.length = m) :
    ∃ out, scaleZ m zi f = .ok out ∧ out.length = m ∧ ∀ i, i < m → sig out i = sig zi i * f := by
  unfold scaleZ
  obtain ⟨out, e, h1, h2⟩ := forRange_inv (fun i (out : List K) => do
      let z ← readAt zi i
      writeAt out i (z * f)) (fun k out => out.length = m ∧ ∀ i, i < k → sig out i = sig zi i * f) m 0 zi
    ⟨hl, by intro i hi; omega⟩ (by
    intro k s _ hk ⟨h1, h2⟩
    refine ⟨s.set k (sig zi k * f), by rw [readAt_sig (by omega), Res.ok_bind, writeAt_ok _ (by omega)],
      by simpa using h1, ?_⟩
    intro i hi
    by_cases hik : i = k
    · subst hik; exact sig_set_self _ (by omega)
    · rw [sig_set_ne _ (by omega)]; exact h2 i (by omega))
  exact ⟨out, e, h1, fun i hi => h2 i (by omega)⟩

theorem turn_spec [Zero K] (len : Nat) (x y : List K) (hx : x.length = len) (hy : y.length = len) :
    ∃ x' y', forRange (turnStep len) 0 len (x, y) = .ok (x', y') ∧ x'.length = len ∧ y'.length = len ∧
      ∀ i, i < len → sig x' i = sig y (len - 1 - i) := by
  obtain ⟨⟨x', y'⟩, e, h1, h2, h3, _⟩ := forRange_inv (turnStep len) (fun k s => s.1.length = len ∧ s.2.length = len ∧
      (∀ i, i < k → sig s.1 i = sig y (len - 1 - i)) ∧ ∀ i, i < len → k ≤ len - 1 - i → sig s.2 i = sig y i) len 0 (x, y)
    ⟨hx, hy, by intro i hi; omega, by intro i _ _; rfl⟩ (by
    intro k s _ hk ⟨h1, h2, h3, h4⟩
    refine ⟨(s.1.set k (sig s.2 (len - k - 1)), s.2.set (len - 1 - k) 0), ?_, by simpa using h1, by simpa using h2, ?_, ?_⟩
    · unfold turnStep
      rw [readAt_sig (by omega), Res.ok_bind, writeAt_ok _ (by omega), Res.ok_bind, writeAt_ok _ (by omega), Res.ok_bind]
    · intro i hi
      by_cases hik : i = k
      · subst hik
        rw [sig_set_self _ (by omega), h4 _ (by omega) (by omega)]
        congr 1
        omega
      · rw [sig_set_ne _ (by omega)]; exact h3 i (by omega)
    · intro i hi1 hi2
      rw [sig_set_ne _ (by omega)]
      exact h4 i hi1 (by omega))
  exact ⟨x', y', e, h1, h2, fun i hi => h3 i (by omega)⟩

/-! ### One window -/

/-- What padding of a window of `nw` samples is accepted: any with zeros, and repeating the end samples if the padding
before the window is at most one longer than the window. -/
def PadOk (p : Pad) (nw m : Nat) : Prop := p = .zero ∨ (p = .replicate ∧ 3 * (m + 1) ≤ nw + 1)

/-- The value of padding before the window, and behind it. -/
def padLeft [Zero K] (p : Pad) (trc : List K) : K := if p = .replicate then sig trc 0 else 0
def padRight [Zero K] (p : Pad) (trc : List K) : K := if p = .replicate then sig trc (trc.length - 1) else 0

theorem padTrace_ok [Zero K] (p : Pad) (nw : Nat) (trc : List K) (m : Nat) (hp : PadOk p nw m) (hnw : 1 ≤ nw)
    (hl : trc.length = nw) (h64 : nw + 6 * (m + 1) < 2 ^ 64) :
    ∃ out, padTrace p nw trc m = .ok out ∧ out.length = nw + 6 * (m + 1) ∧
      ∀ k, k < nw + 6 * (m + 1) → sig out k =
        if k < 3 * (m + 1) then padLeft p trc
        else if k < 3 * (m + 1) + nw then sig trc (k - 3 * (m + 1))
        else if k < 6 * m + 3 + nw then padRight p trc else 0 := by
  refine padTrace_spec p nw trc m (fun _ => padLeft p trc) (fun _ => padRight p trc) hnw hl h64 ?_ ?_
  · intro i hi
    rcases hp with rfl | ⟨rfl, hp⟩
    · rfl
    · show (if i ≤ nw then readAt trc 0 else readAt trc nw) = _
      rw [if_pos (by omega), readAt_sig (by omega)]
      rfl
  · intro i hi
    rcases hp with rfl | ⟨rfl, hp⟩
    · rfl
    · show (if i + 3 * m + nw ≤ nw - 1 then readAt trc 0 else readAt trc (nw - 1)) = _
      rw [if_neg (by omega), readAt_sig (by omega)]
      unfold padRight
      rw [if_pos rfl, hl]

/-- C43, one window (partial). For every window of at least one sample, every order of at least one, all coefficients
and padding with zeros, or with the end samples when the window is not much shorter than the padding: all reads and
writes stay inside the arrays. The result is that of two passes of the difference equation over the padded window `X`,
forwards and backwards, the initial conditions scaled by the first sample each time.

The full claim is for every padding: `C43_symmetric_refuted`, `C43_cyclic_refuted`, `C43_replicate_refuted`. -/
theorem C43_time_partial [Field K] (p : Pad) (nw : Nat) (trc : List K) (m : Nat) (b a : List K) (hp : PadOk p nw m)
    (hm : 1 ≤ m) (hnw : 1 ≤ nw) (hl : trc.length = nw) (hb : b.length = m + 1) (ha : a.length = m + 1)
    (h64 : nw + 6 * (m + 1) < 2 ^ 64) :
    ∃ out, filterTime p nw trc m b a = .ok out ∧ out.length = nw ∧
      ∃ X Y Z z : Nat → K,
        (∀ k, k < nw + 6 * (m + 1) → X k =
          if k < 3 * (m + 1) then padLeft p trc
          else if k < 3 * (m + 1) + nw then sig trc (k - 3 * (m + 1))
          else if k < 6 * m + 3 + nw then padRight p trc else 0) ∧
        (∀ i, i < m → z i = (1 + ∑ j ∈ Finset.range i, sig a (j + 1)) *
          ((∑ j ∈ Finset.range m, (sig b (j + 1) - sig a (j + 1) * sig b 0)) / (1 + ∑ j ∈ Finset.range m, sig a (j + 1))) -
          ∑ j ∈ Finset.range i, (sig b (j + 1) - sig a (j + 1) * sig b 0)) ∧
        (∀ i, i < nw + 6 * (m + 1) → Diff m (sig b) (sig a) X (fun i => z i * X 0) Y i) ∧
        (∀ i, i < nw + 6 * (m + 1) → Diff m (sig b) (sig a) (fun k => Y (nw + 6 * (m + 1) - 1 - k))
          (fun i => z i * Y (nw + 6 * (m + 1) - 1)) Z i) ∧
        ∀ i, i < nw → sig out i = Z (nw + 3 * (m + 1) - 1 - i) := by
  obtain ⟨X, eX, lX, sX⟩ := padTrace_ok p nw trc m hp hnw hl h64
  obtain ⟨z, ez, lz, sz⟩ := startZ_spec m b a hm hb ha
  obtain ⟨z1, ez1, lz1, sz1⟩ := scaleZ_spec m z (sig X 0) lz
  obtain ⟨Y, eY, lY, sY⟩ := C45_difference_partial m (nw + 6 * (m + 1)) b a X (List.replicate (nw + 6 * (m + 1)) 0) z1 hm
    (by omega) hb ha lX (by simp) lz1
  obtain ⟨X2, Y2, eT, lX2, lY2, sT⟩ := turn_spec (nw + 6 * (m + 1)) X Y lX lY
  obtain ⟨z2, ez2, lz2, sz2⟩ := scaleZ_spec m z (sig X2 0) lz
  obtain ⟨Z, eZ, lZ, sZ⟩ := C45_difference_partial m (nw + 6 * (m + 1)) b a X2 Y2 z2 hm (by omega) hb ha lX2 lY2 lz2
  obtain ⟨out, eo, lo, so⟩ := forRange_inv (fun i trc => do
      let v ← readAt Z (nw + 3 * (m + 1) - i - 1)
      writeAt trc i v) (fun k s => s.length = nw ∧ ∀ i, i < k → sig s i = sig Z (nw + 3 * (m + 1) - 1 - i)) nw 0 trc
    ⟨hl, by intro i hi; omega⟩ (by
    intro k s _ hk ⟨h1, h2⟩
    refine ⟨s.set k (sig Z (nw + 3 * (m + 1) - k - 1)), by rw [readAt_sig (by omega), Res.ok_bind, writeAt_ok _ (by omega)],
      by simpa using h1, ?_⟩
    intro i hi
    by_cases hik : i = k
    · subst hik
      rw [sig_set_self _ (by omega)]
      congr 1
      omega
    · rw [sig_set_ne _ (by omega)]; exact h2 i (by omega))
  refine ⟨out, ?_, lo, sig X, sig Y, sig Z, sig z, sX, sz, ?_, ?_, fun i hi => so i (by omega)⟩
  · unfold filterTime
    simp only
    rw [eX, Res.ok_bind, ez, Res.ok_bind, readAt_sig (by omega), Res.ok_bind, ez1, Res.ok_bind, eY, Res.ok_bind, eT,
      Res.ok_bind, readAt_sig (by simp only; omega), Res.ok_bind]
    simp only
    rw [ez2, Res.ok_bind, eZ, Res.ok_bind, eo]
  · intro i hi
    have := sY i hi
    unfold Diff at this ⊢
    rw [this]
    congr 2
    by_cases him : i < m
    · rw [if_pos him, if_pos him, sz1 i him]
    · rw [if_neg him, if_neg him]
  · intro i hi
    have := sZ i hi
    unfold Diff at this ⊢
    rw [this, sT i hi]
    congr 1
    · congr 1
      by_cases him : i < m
      · rw [if_pos him, if_pos him, sz2 i him, sT 0 (by omega), Nat.sub_zero]
      · rw [if_neg him, if_neg him]
    · apply Finset.sum_congr rfl
      intro j hj
      rw [Finset.mem_range] at hj
      rw [sT (i - (j + 1)) (by omega)]

/-- A filter that adds the previous sample, forwards and backwards, with zeros around. -/
example : filterTime .zero 3 [1, 0, 0] 1 [1, 1] ([1, 0] : List ℚ) = .ok [2, 1, 0] := by decide +kernel

/-- C43 fails for every window and order with symmetric padding: the padding behind the window is read from behind the
window. -/
theorem C43_symmetric_refuted [Field K] (nw : Nat) (trc : List K) (m : Nat) (b a : List K) (hnw : 1 ≤ nw)
    (hl : trc.length = nw) (h64 : 2 * (nw + 6 * (m + 1)) < 2 ^ 64) : filterTime .symmetric nw trc m b a = .ub := by
  have : padTrace .symmetric nw trc m = .ub := by
    unfold padTrace
    rw [show 3 * (m + 1) = (3 * m + 2) + 1 by omega, forRange_succ]
    have : padStep .symmetric nw trc m 0 (List.replicate (nw + 6 * (m + 1)) (0 : K)) = .ub := by
      unfold padStep padding
      simp only [Nat.zero_le, ↓reduceIte]
      unfold readAt
      cases trc[sub64 (3 * (m + 1)) 0]? with
      | none => rfl
      | some v =>
        simp only [Res.ok_bind]
        rw [writeAt_ok _ (by simp), Res.ok_bind, if_neg (by omega), sub64_eq (by omega) (by omega),
          List.getElem?_eq_none (by omega)]
        rfl
    rw [this]
    rfl
  unfold filterTime
  rw [this]
  rfl

/-- C43 fails for every window and order with cyclic padding: the padding behind the window is read from before the
window. -/
theorem C43_cyclic_refuted [Field K] (nw : Nat) (trc : List K) (m : Nat) (b a : List K) (hnw : 1 ≤ nw)
    (hl : trc.length = nw) (h64 : 2 * (nw + 6 * (m + 1)) < 2 ^ 64) : filterTime .cyclic nw trc m b a = .ub := by
  have : padTrace .cyclic nw trc m = .ub := by
    unfold padTrace
    rw [show 3 * (m + 1) = (3 * m + 2) + 1 by omega, forRange_succ]
    have : padStep .cyclic nw trc m 0 (List.replicate (nw + 6 * (m + 1)) (0 : K)) = .ub := by
      unfold padStep padding
      simp only [Nat.zero_le, ↓reduceIte]
      unfold readAt
      cases trc[sub64 nw (sub64 (3 * (m + 1)) 0)]? with
      | none => rfl
      | some v =>
        simp only [Res.ok_bind]
        rw [writeAt_ok _ (by simp), Res.ok_bind, if_neg (by omega),
          sub64_eq (a := 0 + 3 * m + nw) (b := nw - 1) (by omega) (by omega), sub64_wrap (by omega) (by omega), List.getElem?_eq_none (by omega)]
        rfl
    rw [this]
    rfl
  unfold filterTime
  rw [this]
  rfl

/-- C43 fails for every window shorter than the padding (by two samples or more) with replicate padding: the sample
behind the window is read. -/
theorem C43_replicate_refuted [Field K] (nw : Nat) (trc : List K) (m : Nat) (b a : List K) (hnw : 1 ≤ nw)
    (hl : trc.length = nw) (hs : nw + 1 < 3 * (m + 1)) : filterTime .replicate nw trc m b a = .ub := by
  have : forRange (padStep .replicate nw trc m) 0 (3 * (m + 1)) (List.replicate (nw + 6 * (m + 1)) (0 : K)) = .ub := by
    refine forRange_ub _ (fun s => s.length = nw + 6 * (m + 1)) (nw + 1) _ 0 _ (by simp) ?_ (by omega) (by omega) ?_
    · intro i s _ hi hsl
      unfold padStep padding
      simp only
      rw [if_neg (show ¬ i + 3 * m + nw ≤ nw - 1 by omega), readAt_sig (i := nw - 1) (by omega)]
      by_cases h : i ≤ nw
      · rw [if_pos h, readAt_sig (by omega), Res.ok_bind, writeAt_ok _ (by omega), Res.ok_bind, Res.ok_bind,
          writeAt_ok _ (by simp; omega)]
        exact Or.inr ⟨_, rfl, by simpa using hsl⟩
      · rw [if_neg h, readAt_ub (by omega)]
        exact Or.inl rfl
    · intro s _
      unfold padStep padding
      simp only
      rw [if_neg (show ¬ nw + 1 ≤ nw by omega), readAt_ub (by omega)]
      rfl
  unfold filterTime padTrace
  rw [this]
  rfl

example : filterTime .symmetric 3 [1, 2, 3] 1 [1, 1] ([1, 0] : List ℚ) = .ub ∧
    filterTime .cyclic 3 [1, 2, 3] 1 [1, 1] ([1, 0] : List ℚ) = .ub ∧
    filterTime .replicate 3 [1, 2, 3] 1 [1, 1] ([1, 0] : List ℚ) = .ub ∧
    filterTime .replicate 5 [1, 2, 3, 4, 5] 1 [1, 1] ([1, 0] : List ℚ) ≠ .ub := by decide +kernel

/-! ### Windows of traces -/

/-- The window length used: the one asked for, or that of the trace, made odd. -/
def oddWindow (ns nw : Nat) : Nat :=
  let n := if nw = 0 ∨ nw > ns then ns else nw
  if n % 2 ≠ 0 then n else n - 1

/-- The centre used: the one asked for, or the middle of the trace. -/
def centre (ns winCntr : Nat) : Nat := if winCntr = 0 then ns / 2 else winCntr

theorem temporalFilter_eq [Zero K] (nt ns : Nat) (trc : List K) (filter : Nat → List K → Res (List K)) (nw winCntr : Nat)
    (hns : 1 ≤ ns) (h64 : ns < 2 ^ 64) (hc : centre ns winCntr < ns) :
    temporalFilter nt ns trc filter nw winCntr =
      forRange (windowStep ns filter (oddWindow ns nw) (centre ns winCntr)) 0 nt trc := by
  have key : (let n := if nw = 0 ∨ nw > ns then ns else nw
      if n % 2 ≠ 0 then n else sub64 n 1) = oddWindow ns nw := by
    unfold oddWindow
    simp only
    generalize hn : (if nw = 0 ∨ nw > ns then ns else nw) = n
    have : 1 ≤ n ∧ n ≤ ns := by
      rw [← hn]
      split <;> omega
    by_cases ho : n % 2 ≠ 0
    · rw [if_pos ho, if_pos ho]
    · rw [if_neg ho, if_neg ho]
      exact sub64_eq (by omega) (by omega)
  simp only at key
  unfold temporalFilter
  simp only
  rw [key]
  unfold centre at hc ⊢
  rw [if_neg (by omega)]

theorem oddWindow_spec (ns nw : Nat) (hns : 1 ≤ ns) : oddWindow ns nw % 2 = 1 ∧ 1 ≤ oddWindow ns nw ∧ oddWindow ns nw ≤ ns := by
  unfold oddWindow
  simp only
  generalize hn : (if nw = 0 ∨ nw > ns then ns else nw) = n
  have : 1 ≤ n ∧ n ≤ ns := by
    rw [← hn]
    split <;> omega
  split <;> omega

/-- C43, traces (partial). For all traces, every window inside the trace (from `w/2` before the centre to `w/2` behind
it, `w` the odd window length) and every filter of windows: in each trace the samples of the window are replaced by the
filtered window of that trace, and no other sample of any trace is changed.

The full claim is for every window and centre below the trace length: `C43_window_refuted`. -/
theorem C43_window_partial [Zero K] (nt ns : Nat) (trc : List K) (filter : Nat → List K → Res (List K))
    (nw winCntr : Nat) (hlen : trc.length = nt * ns) (h64 : nt * ns + ns < 2 ^ 63) (hns : 1 ≤ ns)
    (hlo : oddWindow ns nw / 2 ≤ centre ns winCntr) (hhi : centre ns winCntr + oddWindow ns nw / 2 < ns)
    (G : List K → List K) (hG : ∀ w, w.length = oddWindow ns nw → filter (oddWindow ns nw) w = .ok (G w) ∧
      (G w).length = oddWindow ns nw) :
    ∃ out, temporalFilter nt ns trc filter nw winCntr = .ok out ∧ out.length = nt * ns ∧
      ∀ t k, t < nt → k < ns → sig out (t * ns + k) =
        if centre ns winCntr - oddWindow ns nw / 2 ≤ k ∧ k < centre ns winCntr - oddWindow ns nw / 2 + oddWindow ns nw then
          sig (G ((trc.drop (t * ns + (centre ns winCntr - oddWindow ns nw / 2))).take (oddWindow ns nw)))
            (k - (centre ns winCntr - oddWindow ns nw / 2))
        else sig trc (t * ns + k) := by
  rw [temporalFilter_eq nt ns trc filter nw winCntr hns (by omega) (by omega)]
  obtain ⟨ho, h1, h2⟩ := oddWindow_spec ns nw hns
  generalize oddWindow ns nw = w at *
  generalize centre ns winCntr = c at *
  obtain ⟨out, e, hl, hd, _⟩ := forRange_inv (windowStep ns filter w c) (fun i s => s.length = nt * ns ∧
      (∀ t k, t < i → k < ns → sig s (t * ns + k) = if c - w / 2 ≤ k ∧ k < c - w / 2 + w then
          sig (G ((trc.drop (t * ns + (c - w / 2))).take w)) (k - (c - w / 2)) else sig trc (t * ns + k)) ∧
      ∀ q, i * ns ≤ q → sig s q = sig trc q) nt 0 trc ⟨hlen, by intro t k ht; omega, by intro q _; rfl⟩ (by
    intro i s _ hi ⟨hl, hd, hr⟩
    have hins : i * ns + ns ≤ nt * ns := by
      have := Nat.mul_le_mul_right ns (show i + 1 ≤ nt by omega)
      rwa [Nat.add_mul, Nat.one_mul] at this
    have hsub : sub64 c (w / 2) = c - w / 2 := sub64_eq hlo (by omega)
    have hadd : add64 (i * ns) (c - w / 2) = i * ns + (c - w / 2) := add64_eq (by omega)
    obtain ⟨win, e1, l1, s1⟩ := copyLoop_spec w s (i * ns + (c - w / 2)) (List.replicate w (0 : K)) 0 (by omega) (by simp)
      (by omega) (by omega)
    have hwin : win = (trc.drop (i * ns + (c - w / 2))).take w := by
      apply List.ext_getElem?
      intro k
      by_cases hk : k < w
      · rw [sig_get (by rw [l1]; simpa using hk), s1 k, if_pos (by omega), List.getElem?_take_of_lt hk, List.getElem?_drop,
          hr _ (by omega), Nat.sub_zero, sig_get (by omega)]
      · rw [List.getElem?_eq_none (by rw [l1]; simp; omega), List.getElem?_eq_none (by simp; omega)]
    have hwl : win.length = w := by rw [l1]; simp
    obtain ⟨g1, g2⟩ := hG win hwl
    obtain ⟨s', e2, l2, s2⟩ := copyLoop_spec w (G win) 0 s (i * ns + (c - w / 2)) (by omega) (by omega) (by omega) (by omega)
    refine ⟨s', ?_, by omega, ?_, ?_⟩
    · unfold windowStep
      rw [hsub, hadd, e1, Res.ok_bind, g1, Res.ok_bind, e2]
    · intro t k ht hk
      rw [s2]
      by_cases hti : t = i
      · subst hti
        by_cases hc : c - w / 2 ≤ k ∧ k < c - w / 2 + w
        · rw [if_pos (by omega), if_pos hc, hwin]
          congr 1
          omega
        · rw [if_neg (by omega), if_neg hc, hr _ (by omega)]
      · have : t * ns + ns ≤ i * ns := by
          have := Nat.mul_le_mul_right ns (show t + 1 ≤ i by omega)
          rwa [Nat.add_mul, Nat.one_mul] at this
        rw [if_neg (by omega)]
        exact hd t k (by omega) hk
    · intro q hq
      rw [Nat.add_mul, Nat.one_mul] at hq
      rw [s2 q, if_neg (by omega)]
      exact hr q (by omega))
  exact ⟨out, e, hl, fun t k ht hk => hd t k (by omega) hk⟩

/-- Two traces of four samples, the window the last three of each. -/
example : temporalFilter 2 4 [1, 2, 3, 4, 5, 6, 7, 8] (fun _ w => .ok (w.map (10 * ·))) 3 2 =
    .ok [1, 20, 30, 40, 5, 60, 70, 80] ∧ oddWindow 4 3 / 2 ≤ centre 4 2 ∧ centre 4 2 + oddWindow 4 3 / 2 < 4 := by decide

/-- C43, the default centre: with centre 0, the middle of the trace, every window length is inside the trace. -/
theorem C43_default (ns nw : Nat) (hns : 1 ≤ ns) :
    oddWindow ns nw / 2 ≤ centre ns 0 ∧ centre ns 0 + oddWindow ns nw / 2 < ns := by
  obtain ⟨ho, h1, h2⟩ := oddWindow_spec ns nw hns
  unfold centre
  rw [if_pos rfl]
  omega

example : oddWindow 4 0 = 3 ∧ centre 4 0 = 2 ∧ oddWindow 5 9 = 5 ∧ centre 5 0 = 2 := by decide

/-- C43 fails for every window that is not inside the trace, every number of traces and every filter: samples before the
first or behind the last trace are read (and for the traces between, samples of the neighbours are filtered). -/
theorem C43_window_refuted [Zero K] (nt ns : Nat) (trc : List K) (filter : Nat → List K → Res (List K)) (nw winCntr : Nat)
    (hnt : 1 ≤ nt) (hlen : trc.length = nt * ns) (h64 : nt * ns + ns < 2 ^ 63) (hns : 1 ≤ ns) (hc : centre ns winCntr < ns)
    (hout : centre ns winCntr < oddWindow ns nw / 2 ∨ ns ≤ centre ns winCntr + oddWindow ns nw / 2)
    (hf : ∀ n w, filter n w ≠ .abort) : temporalFilter nt ns trc filter nw winCntr = .ub := by
  rw [temporalFilter_eq nt ns trc filter nw winCntr hns (by omega) hc]
  obtain ⟨ho, h1, h2⟩ := oddWindow_spec ns nw hns
  generalize oddWindow ns nw = w at *
  generalize centre ns winCntr = c at *
  have hcopy : ∀ (n : Nat) (src : List K) (start : Nat) (dst : List K) (d0 : Nat),
      copyLoop n src start dst d0 = .ub ∨ ∃ out, copyLoop n src start dst d0 = .ok out ∧ out.length = dst.length := by
    intro n src start dst d0
    unfold copyLoop
    have : ∀ (n lo : Nat) (dst : List K), forRange (fun i dst => do
        let v ← readAt src (add64 start i)
        writeAt dst (add64 d0 i) v) lo n dst = .ub ∨ ∃ out, forRange (fun i dst => do
        let v ← readAt src (add64 start i)
        writeAt dst (add64 d0 i) v) lo n dst = .ok out ∧ out.length = dst.length := by
      intro n
      induction n with
      | zero => intro lo dst; exact Or.inr ⟨dst, rfl, rfl⟩
      | succ n ih =>
        intro lo dst
        rw [forRange_succ]
        unfold readAt
        cases src[add64 start lo]? with
        | none => exact Or.inl rfl
        | some v =>
          simp only [Res.ok_bind]
          unfold writeAt
          split
          · rw [Res.ok_bind]
            rcases ih (lo + 1) (dst.set (add64 d0 lo) v) with h | ⟨out, h, hl⟩
            · exact Or.inl h
            · exact Or.inr ⟨out, h, by simpa using hl⟩
          · exact Or.inl rfl
    exact this n 0 dst
  have hstep : ∀ j s, s.length = nt * ns → windowStep ns filter w c j s = .ub ∨
      ∃ s', windowStep ns filter w c j s = .ok s' ∧ s'.length = nt * ns := by
    intro j s hs
    unfold windowStep
    rcases hcopy w s (add64 (j * ns) (sub64 c (w / 2))) (List.replicate w 0) 0 with h | ⟨win, h, _⟩
    · rw [h]; exact Or.inl rfl
    · rw [h, Res.ok_bind]
      cases hfw : filter w win with
      | ub => exact Or.inl rfl
      | abort => exact absurd hfw (hf _ _)
      | ok g =>
        rw [Res.ok_bind]
        rcases hcopy w g 0 s (add64 (j * ns) (sub64 c (w / 2))) with h | ⟨out, h, hl⟩
        · exact Or.inl h
        · exact Or.inr ⟨out, h, by omega⟩
  have hpos : ns ≤ nt * ns := Nat.le_mul_of_pos_left ns hnt
  rcases hout with hlt | hge
  · refine forRange_ub _ (fun s => s.length = nt * ns) 0 nt 0 trc hlen (fun j s _ _ hs => hstep j s hs) le_rfl (by omega) ?_
    intro s hs
    unfold windowStep
    have hidx : s.length ≤ add64 (add64 (0 * ns) (sub64 c (w / 2))) 0 := by
      rw [Nat.zero_mul, sub64_wrap hlt (by omega)]
      unfold add64
      omega
    rw [copyLoop_ub w s _ (List.replicate w 0) 0 0 (by omega) hidx]
    rfl
  · by_cases hlt : c < w / 2
    · omega
    have hlast : (nt - 1) * ns + ns = nt * ns := by
      have : nt = (nt - 1) + 1 := by omega
      conv => rhs; rw [this, Nat.add_mul, Nat.one_mul]
    refine forRange_ub _ (fun s => s.length = nt * ns) (nt - 1) nt 0 trc hlen (fun j s _ _ hs => hstep j s hs) (by omega)
      (by omega) ?_
    intro s hs
    unfold windowStep
    have hidx : s.length ≤ add64 (add64 ((nt - 1) * ns) (sub64 c (w / 2))) (ns - (c - w / 2)) := by
      rw [sub64_eq (by omega) (by omega), add64_eq (a := (nt - 1) * ns) (by omega), add64_eq (by omega)]
      omega
    rw [copyLoop_ub w s _ (List.replicate w 0) 0 (ns - (c - w / 2)) (by omega) hidx]
    rfl

/-- A window at the end of two traces of four samples: with the first trace the first sample of the second is filtered
too. -/
example : temporalFilter 2 4 [1, 2, 3, 4, 5, 6, 7, 8] (fun _ w => .ok (w.map (10 * ·))) 3 3 = .ub ∧
    windowStep 4 (fun _ w => .ok (w.map (10 * ·))) 3 3 0 [1, 2, 3, 4, 5, 6, 7, 8] = .ok [1, 2, 30, 40, 50, 6, 7, 8] := by
  decide

/-! ### Constants -/

/-- C58 (partial): with the initial conditions of the time-domain filter, scaled by the constant, one pass of the filter
answers a constant signal with the constant times the gain at frequency zero, from the first sample on.

The full claim is about the whole filter with replicate padding: `C58_constant_refuted`. -/
theorem C58_steady_partial [Field K] (m ns : Nat) (b a zi y : List K) (c : K) (hm : 1 ≤ m) (hns : m ≤ ns)
    (hb : b.length = m + 1) (ha : a.length = m + 1) (hy : y.length = ns)
    (hz : startZ m b a = .ok zi) (hI : 1 + ∑ j ∈ Finset.range m, sig a (j + 1) ≠ 0) :
    ∃ zc out, scaleZ m zi c = .ok zc ∧ iir m ns b a (List.replicate ns c) y zc = .ok out ∧
      out = List.replicate ns (c * ((∑ j ∈ Finset.range (m + 1), sig b j) / (1 + ∑ j ∈ Finset.range m, sig a (j + 1)))) := by
  obtain ⟨zi', e, lz, sz⟩ := startZ_spec m b a hm hb ha
  rw [hz] at e
  cases e
  obtain ⟨zc, ec, lc, sc⟩ := scaleZ_spec m zi c lz
  obtain ⟨out, eo, lo, so⟩ := C45_difference_partial m ns b a (List.replicate ns c) y zc hm hns hb ha (by simp) hy lc
  refine ⟨zc, out, ec, eo, ?_⟩
  generalize hA : 1 + ∑ j ∈ Finset.range m, sig a (j + 1) = A at *
  generalize hH : (∑ j ∈ Finset.range (m + 1), sig b j) / A = H
  have hrep : ∀ (n : Nat) (v : K) i, i < n → sig (List.replicate n v) i = v := by
    intro n v i hi
    exact sig_of (by simp [hi])
  -- the first initial condition
  have hz0 : (∑ j ∈ Finset.range m, (sig b (j + 1) - sig a (j + 1) * sig b 0)) / A = H - sig b 0 := by
    rw [← hH, Finset.sum_sub_distrib, ← Finset.sum_mul, Finset.sum_range_succ', div_eq_iff hI, sub_mul, div_mul_cancel₀ _ hI]
    rw [← hA]
    ring
  rw [hz0] at sz
  have hu := diff_unique m (sig b) (sig a) (sig (List.replicate ns c)) (sig zc) (sig out) (sig (List.replicate ns (c * H))) ns so (by
    intro i hi
    unfold Diff
    rw [hrep ns _ i hi, hrep ns _ i hi]
    have hsum : ∑ j ∈ Finset.range (min i m), (sig b (j + 1) * sig (List.replicate ns c) (i - (j + 1)) -
        sig a (j + 1) * sig (List.replicate ns (c * H)) (i - (j + 1))) =
        ∑ j ∈ Finset.range (min i m), (sig b (j + 1) * c - sig a (j + 1) * (c * H)) := by
      apply Finset.sum_congr rfl
      intro j hj
      rw [Finset.mem_range] at hj
      rw [hrep ns _ _ (by omega), hrep ns _ _ (by omega)]
    rw [hsum, Finset.sum_sub_distrib, ← Finset.sum_mul, ← Finset.sum_mul]
    by_cases him : i < m
    · rw [if_pos him, sc i him, sz i him, Nat.min_eq_left him.le, Finset.sum_sub_distrib, ← Finset.sum_mul]
      ring
    · rw [if_neg him, Nat.min_eq_right (by omega)]
      have h1 : (∑ j ∈ Finset.range m, sig b (j + 1)) = H * A - sig b 0 := by
        rw [← hH, div_mul_cancel₀ _ hI, Finset.sum_range_succ']
        ring
      have h2 : (∑ j ∈ Finset.range m, sig a (j + 1)) = A - 1 := by rw [← hA]; ring
      rw [h1, h2]
      ring)
  apply List.ext_getElem?
  intro i
  by_cases hi : i < ns
  · rw [sig_get (by omega), sig_get (by simpa using hi), hu i hi]
  · rw [List.getElem?_eq_none (by omega), List.getElem?_eq_none (by simp; omega)]

example : startZ 1 [1 / 2, 0] ([1, -1 / 2] : List ℚ) = .ok [1 / 2] := by decide +kernel

/-- C58 fails: with replicate padding a constant trace of ones through a filter with gain one at frequency zero does not
come back as ones, because the padding behind the window ends in three zeros. -/
theorem C58_constant_refuted : ¬ ∀ (nw m : Nat) (b a : List ℚ) (c : ℚ), 1 ≤ m → 3 * (m + 1) ≤ nw →
    b.length = m + 1 → a.length = m + 1 → b.sum = a.sum → a.sum ≠ 0 → a.head? = some 1 →
    filterTime .replicate nw (List.replicate nw c) m b a = .ok (List.replicate nw c) := by
  intro h
  have := h 7 1 [1 / 2, 0] [1, -1 / 2] 1 (by decide) (by decide) rfl rfl (by norm_num) (by norm_num) rfl
  revert this
  decide +kernel

end Verif.Signal
