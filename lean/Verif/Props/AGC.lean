import Verif.Signal.AGC

/-!
C40 (gain control) and C41 (taper).
-/

namespace Verif.Signal

variable {V : Type}

/-- First sample of the window of half-width `h` around sample `j`, clipped to the signal. -/
def clipStart (h j : Nat) : Nat := j - h
/-- One past the last sample of the clipped window. -/
def clipEnd (n h j : Nat) : Nat := min n (j + h + 1)
/-- The samples of the signal at positions `clipStart ≤ i < clipEnd`. -/
def clip (s : List V) (h j : Nat) : List V := (s.take (clipEnd s.length h j)).drop (clipStart h j)

theorem window_clip (s : List V) (a len h j : Nat) (h1 : a = clipStart h j) (h2 : a + len = clipEnd s.length h j) :
    window s a len = .ok (clip s h j) := by
  unfold window clip
  have : clipEnd s.length h j ≤ s.length := Nat.min_le_left _ _
  rw [if_pos (by omega), ← h2, h1, List.drop_take]
  congr 3
  omega

/-- The half-width used for a window size: that of the next odd size. -/
def half (w : Nat) : Nat := w / 2

theorem odd_size (w : Nat) : let w' := if w % 2 = 0 then w + 1 else w
    w' = 2 * half w + 1 ∧ w' / 2 = half w := by
  unfold half
  simp only
  split <;> constructor <;> omega

section
variable [Zero V] [Mul V]

omit [Zero V] [Mul V] in
/-- What one loop of the gain computation does. -/
theorem gain_loop (body : Nat → List V → Res (List V)) (P : Nat → V → Prop) (n lo cnt : Nat) (hn : lo + cnt ≤ n)
    (hb : ∀ j gain, lo ≤ j → j < lo + cnt → ∃ g, P j g ∧ body j gain = writeAt gain j g) (gain : List V)
    (hl : gain.length = n) (hp : ∀ j, j < lo → ∃ g, gain[j]? = some g ∧ P j g) :
    ∃ gain', forRange body lo cnt gain = .ok gain' ∧ gain'.length = n ∧
      ∀ j, j < lo + cnt → ∃ g, gain'[j]? = some g ∧ P j g := by
  refine forRange_inv body (fun k gain => gain.length = n ∧ ∀ j, j < k → ∃ g, gain[j]? = some g ∧ P j g) cnt lo gain
    ⟨hl, hp⟩ ?_
  intro j s hj1 hj2 ⟨hs1, hs2⟩
  obtain ⟨g, hg, he⟩ := hb j s hj1 hj2
  refine ⟨s.set j g, by rw [he, writeAt_ok _ (by omega)], by simpa using hs1, ?_⟩
  intro k hk
  by_cases hkj : k = j
  · subst hkj
    exact ⟨g, by simp [List.getElem?_set, hs1]; omega, hg⟩
  · obtain ⟨g', h1, h2⟩ := hs2 k (by omega)
    exact ⟨g', by rw [List.getElem?_set_ne (by omega)]; exact h1, h2⟩

/-- C40 (partial). For every signal, every gain function, every target and every window size whose next odd size is
below the length of the signal: if the gain function gives `g j` for the window of half-width `w/2` around sample `j`
clipped to the signal, with the centre at sample `j`, all windows taken from the signal as it was before the call, then
the result is the signal with each sample multiplied by its gain.

The full claim is for every window size below the length of the signal: `C40_even_refuted`. -/
theorem C40_window_partial (s : List V) (gainFn : GainFn V) (w : Nat) (target : V) (hw : 2 * (w / 2) + 1 < s.length)
    (h64 : s.length < 2 ^ 64) (g : Nat → V)
    (hg : ∀ j, j < s.length →
      gainFn ((s.take (min s.length (j + w / 2 + 1))).drop (j - w / 2)) target (min j (w / 2)) = .ok (g j)) :
    ∃ out, agc s gainFn w target = .ok out ∧ out.length = s.length ∧
      ∀ j (h : j < s.length), out[j]? = some (s[j] * g j) := by
  obtain ⟨ho1, ho2⟩ := odd_size w
  unfold agc
  simp only
  rw [if_neg (by rw [ho1]; unfold half; omega), if_neg (by rw [ho2, ← ho1]; simp)]
  rw [ho2]
  have hw2 : (if w % 2 = 0 then w + 1 else w) = 2 * half w + 1 := ho1
  rw [hw2]
  have hh : half w = w / 2 := rfl
  have hsub : sub64 s.length (half w) = s.length - half w := sub64_eq (by omega) h64
  have hsub1 : sub64 s.length 1 = s.length - 1 := sub64_eq (by omega) h64
  have hgain : ∀ j, j < s.length → gainFn (clip s (half w) j) target (min j (half w)) = .ok (g j) := hg
  -- start
  obtain ⟨g1, e1, l1, p1⟩ := gain_loop (n := s.length) (lo := 0) (cnt := half w) (fun j gain => do
      let win ← window s 0 (half w + j + 1)
      let g ← gainFn win target j
      writeAt gain j g) (fun j v => v = g j) (by omega) (by
    intro j gain _ hj
    refine ⟨g j, rfl, ?_⟩
    rw [window_clip s 0 (half w + j + 1) (half w) j (by unfold clipStart; omega) (by unfold clipEnd; omega), Res.ok_bind]
    have := hgain j (by omega)
    rw [show min j (half w) = j by omega] at this
    rw [this, Res.ok_bind]) (List.replicate s.length 0) (by simp) (by intro j hj; omega)
  rw [e1, Res.ok_bind]
  -- middle
  obtain ⟨g2, e2, l2, p2⟩ := gain_loop (n := s.length) (lo := half w) (cnt := s.length - half w - half w) (fun j gain => do
      let win ← window s (sub64 j (half w)) (2 * half w + 1)
      let g ← gainFn win target (half w)
      writeAt gain j g) (fun j v => v = g j) (by omega) (by
    intro j gain hj1 hj
    refine ⟨g j, rfl, ?_⟩
    rw [sub64_eq (by omega) (by omega),
      window_clip s (j - half w) (2 * half w + 1) (half w) j (by unfold clipStart; omega) (by unfold clipEnd; omega), Res.ok_bind]
    have := hgain j (by omega)
    rw [show min j (half w) = half w by omega] at this
    rw [this, Res.ok_bind]) g1 l1 (by intro j hj; exact p1 j (by omega))
  rw [hsub, e2, Res.ok_bind]
  -- end
  obtain ⟨g3, e3, l3, p3⟩ := gain_loop (n := s.length) (lo := s.length - half w) (cnt := s.length - (s.length - half w))
    (fun j gain => do
      let dist := sub64 (sub64 s.length 1) j
      let win ← window s (sub64 j (half w)) (half w + dist + 1)
      let g ← gainFn win target (half w)
      writeAt gain j g) (fun j v => v = g j) (by omega) (by
    intro j gain hj1 hj
    refine ⟨g j, rfl, ?_⟩
    simp only
    rw [hsub1, sub64_eq (a := s.length - 1) (b := j) (by omega) (by omega), sub64_eq (a := j) (by omega) (by omega),
      window_clip s (j - half w) (half w + (s.length - 1 - j) + 1) (half w) j (by unfold clipStart; omega)
        (by unfold clipEnd; omega), Res.ok_bind]
    have := hgain j (by omega)
    rw [show min j (half w) = half w by omega] at this
    rw [this, Res.ok_bind]) g2 l2 (by intro j hj; exact p2 j (by omega))
  simp only at e3
  rw [e3, Res.ok_bind]
  -- application
  obtain ⟨out, e4, l4, p4, _⟩ := forRange_inv (fun j signal => do
      let s ← readAt signal j
      let g ← readAt g3 j
      writeAt signal j (s * g)) (fun k out => out.length = s.length ∧
        (∀ j (h : j < s.length), j < k → out[j]? = some (s[j] * g j)) ∧ ∀ j, k ≤ j → out[j]? = s[j]?)
    s.length 0 s ⟨rfl, by intro j h hj; omega, by intro j _; rfl⟩ (by
    intro j t _ hj ⟨hl, ha, hb⟩
    obtain ⟨v, hv1, hv2⟩ := p3 j (by omega)
    have hj' : j < s.length := by omega
    have htj : t[j]? = some s[j] := by rw [hb j (Nat.le_refl _)]; exact List.getElem?_eq_getElem hj'
    refine ⟨t.set j (s[j] * g j), ?_, by simpa using hl, ?_, ?_⟩
    · rw [readAt_some htj, Res.ok_bind, readAt_some hv1, Res.ok_bind, hv2, writeAt_ok _ (by omega)]
    · intro k hk hk2
      by_cases hkj : k = j
      · subst hkj
        rw [List.getElem?_set_self (by omega)]
      · rw [List.getElem?_set_ne (by omega)]
        exact ha k hk (by omega)
    · intro k hk
      rw [List.getElem?_set_ne (by omega)]
      exact hb k (by omega))
  exact ⟨out, e4, l4, fun j h => p4 j h (by omega)⟩


/-- The windows of a signal and a gain that is their sum: windows are clipped at both ends. -/
example : agc [1, 2, 3, 4, 5] (fun win t c => .ok (win.sum + t + 100 * c)) 3 1000 =
    .ok [1 * 1003, 2 * 1106, 3 * 1109, 4 * 1112, 5 * 1109] := by decide

omit [Zero V] [Mul V] in
theorem window_ok (s : List V) (a len : Nat) (h : a + len ≤ s.length) : window s a len = .ok ((s.drop a).take len) := by
  unfold window; rw [if_pos h]

/-- C40, bounds: whatever the signal, the window size and the target, gain control addresses no sample outside the
signal, provided the gain function itself has no undefined behaviour. -/
theorem C40_bounds (s : List V) (gainFn : GainFn V) (w : Nat) (target : V) (h64 : s.length < 2 ^ 64)
    (hg : ∀ win t c, gainFn win t c ≠ .ub) : agc s gainFn w target ≠ .ub := by
  obtain ⟨ho1, ho2⟩ := odd_size w
  have hh : half w = w / 2 := rfl
  by_cases hw : 2 * half w + 1 < s.length
  · have hsub : sub64 s.length (half w) = s.length - half w := sub64_eq (by omega) h64
    have hsub1 : sub64 s.length 1 = s.length - 1 := sub64_eq (by omega) h64
    -- one step of a loop
    have step : ∀ (a len c j : Nat) (gain : List V), gain.length = s.length → j < s.length → a + len ≤ s.length →
        ((do
          let win ← window s a len
          let g ← gainFn win target c
          writeAt gain j g : Res (List V)) = .abort ∨ ∃ gain', (do
          let win ← window s a len
          let g ← gainFn win target c
          writeAt gain j g : Res (List V)) = .ok gain' ∧ gain'.length = s.length) := by
      intro a len c j gain hl hj ha
      rw [window_ok _ _ _ ha, Res.ok_bind]
      cases he : gainFn ((s.drop a).take len) target c with
      | ub => exact absurd he (hg _ _ _)
      | abort => exact Or.inl rfl
      | ok g => exact Or.inr ⟨gain.set j g, by rw [Res.ok_bind, writeAt_ok _ (by omega)], by simpa using hl⟩
    have l1 := forRange_safe (fun j gain => do
        let win ← window s 0 (half w + j + 1)
        let g ← gainFn win target j
        writeAt gain j g) (fun _ gain => gain.length = s.length) (half w) 0 (List.replicate s.length (0 : V)) (by simp)
      (fun j gain _ hj hl => step 0 (half w + j + 1) j j gain hl (by omega) (by omega))
    have l2 := fun gain (hl : gain.length = s.length) => forRange_safe (fun j gain => do
        let win ← window s (sub64 j (half w)) (2 * half w + 1)
        let g ← gainFn win target (half w)
        writeAt gain j g) (fun _ gain => gain.length = s.length) (s.length - half w - half w) (half w) gain hl
      (fun j gain hj0 hj hl => step (sub64 j (half w)) (2 * half w + 1) (half w) j gain hl (by omega)
        (by rw [sub64_eq (by omega) (by omega)]; omega))
    have l3 := fun gain (hl : gain.length = s.length) => forRange_safe (fun j gain => do
        let win ← window s (sub64 j (half w)) (half w + sub64 (sub64 s.length 1) j + 1)
        let g ← gainFn win target (half w)
        writeAt gain j g) (fun _ gain => gain.length = s.length) (s.length - (s.length - half w)) (s.length - half w) gain hl
      (fun j gain hj0 hj hl => step (sub64 j (half w)) (half w + sub64 (sub64 s.length 1) j + 1) (half w) j gain hl (by omega)
        (by rw [hsub1, sub64_eq (a := s.length - 1) (by omega) (by omega), sub64_eq (a := j) (by omega) (by omega)]; omega))
    have l4 := fun (gain : List V) (hl : gain.length = s.length) => forRange_safe (fun j signal => do
        let s ← readAt signal j
        let g ← readAt gain j
        writeAt signal j (s * g)) (fun _ out => out.length = s.length) s.length 0 s rfl
      (fun j out _ hj hlo => Or.inr ⟨out.set j (out[j]'(by omega) * gain[j]'(by omega)), by
        rw [readAt_ok (by omega), Res.ok_bind, readAt_ok (by omega), Res.ok_bind, writeAt_ok _ (by omega)],
        by simpa using hlo⟩)
    unfold agc
    simp only
    rw [if_neg (by rw [ho1]; omega), if_neg (by rw [ho2, ← ho1]; simp), ho2, ho1, hsub]
    rcases l1 with e | ⟨g1, e, h1⟩ <;> rw [e]
    · exact fun h => nomatch h
    rw [Res.ok_bind]
    rcases l2 g1 h1 with e | ⟨g2, e, h2⟩ <;> rw [e]
    · exact fun h => nomatch h
    rw [Res.ok_bind]
    rcases l3 g2 h2 with e | ⟨g3, e, h3⟩ <;> rw [e]
    · exact fun h => nomatch h
    rw [Res.ok_bind]
    rcases l4 g3 h3 with e | ⟨g4, e, h4⟩ <;> rw [e] <;> exact fun h => nomatch h
  · unfold agc
    simp only
    rw [if_pos (by rw [ho1]; omega)]
    exact fun h => nomatch h

example : ∀ (win : List Nat) (t c : Nat), (fun win t c => .ok (win.sum + t + c) : GainFn Nat) win t c ≠ .ub :=
  fun _ _ _ h => nomatch h

/-- C40 fails for every signal of odd length and the even window size one below it: the size is rounded up to the length
of the signal and the call ends in a failed assertion. -/
theorem C40_even_refuted (s : List V) (gainFn : GainFn V) (w : Nat) (target : V) (hw : w + 1 = s.length)
    (he : w % 2 = 0) : w < s.length ∧ agc s gainFn w target = .abort := by
  refine ⟨by omega, ?_⟩
  unfold agc
  simp only [he, ↓reduceIte, ← hw]
  rw [if_pos (by omega)]

example : 2 + 1 = ([1, 2, 3] : List Nat).length ∧ 2 % 2 = 0 := by decide

end

/-! ### Taper -/

section
variable [Mul V]

/-- Value of sample `p` of a signal of `n` samples after both ramps. -/
def ramped (f : Nat → Nat → V) (left right n : Nat) (x : V) (p : Nat) : V :=
  let y := if p < left then x * f (p + 1) left else x
  if n - right ≤ p then y * f (n - p) right else y

theorem taperLoops_spec (s : List V) (f : Nat → Nat → V) (left right : Nat) (hl : left ≤ s.length) (hr : right ≤ s.length)
    (h64 : s.length < 2 ^ 64) : ∃ out, taperLoops s f left right = .ok out ∧ out.length = s.length ∧
      ∀ p (h : p < s.length), out[p]? = some (ramped f left right s.length s[p] p) := by
  unfold taperLoops
  obtain ⟨s1, e1, l1, p1, q1⟩ := forRange_inv (fun j signal => do
      let s ← readAt signal j
      writeAt signal j (s * f (j + 1) left)) (fun k out => out.length = s.length ∧
        (∀ j (h : j < s.length), j < k → out[j]? = some (s[j] * f (j + 1) left)) ∧ ∀ j, k ≤ j → out[j]? = s[j]?)
    left 0 s ⟨rfl, by intro j h hj; omega, by intro j _; rfl⟩ (by
    intro j t _ hj ⟨htl, ha, hb⟩
    have hj' : j < s.length := by omega
    have htj : t[j]? = some s[j] := by rw [hb j (Nat.le_refl _)]; exact List.getElem?_eq_getElem hj'
    refine ⟨t.set j (s[j] * f (j + 1) left), ?_, by simpa using htl, ?_, ?_⟩
    · rw [readAt_some htj, Res.ok_bind, writeAt_ok _ (by omega)]
    · intro k hk hk2
      by_cases hkj : k = j
      · subst hkj
        rw [List.getElem?_set_self (by omega)]
      · rw [List.getElem?_set_ne (by omega)]
        exact ha k hk (by omega)
    · intro k hk
      rw [List.getElem?_set_ne (by omega)]
      exact hb k (by omega))
  rw [e1, Res.ok_bind]
  obtain ⟨out, e2, l2, p2⟩ := forRange_inv (fun j signal => do
      let offset := sub64 signal.length right
      let s ← readAt signal (offset + j)
      writeAt signal (offset + j) (s * f (sub64 right j) right)) (fun k out => out.length = s.length ∧
        ∀ i, i < s.length → out[i]? = if s.length - right ≤ i ∧ i < s.length - right + k then
          (s1[i]?).map (· * f (s.length - i) right) else s1[i]?)
    right 0 s1 ⟨l1, by intro i hi; rw [if_neg (by omega)]⟩ (by
    intro j t _ hj ⟨htl, ha⟩
    have hoff : sub64 t.length right = s.length - right := by rw [htl]; exact sub64_eq hr h64
    have hrj : sub64 right j = right - j := sub64_eq (by omega) (by omega)
    have hi : s.length - right + j < s1.length := by omega
    have htj : t[s.length - right + j]? = some (s1[s.length - right + j]) := by
      rw [ha _ (by omega), if_neg (by omega)]
      exact List.getElem?_eq_getElem hi
    refine ⟨t.set (s.length - right + j) (s1[s.length - right + j] * f (right - j) right), ?_, by simpa using htl, ?_⟩
    · simp only
      rw [hoff, hrj, readAt_some htj, Res.ok_bind, writeAt_ok _ (by omega)]
    · intro i hi'
      by_cases hij : i = s.length - right + j
      · subst hij
        rw [List.getElem?_set_self (by omega), if_pos (by omega), List.getElem?_eq_getElem hi, Option.map_some]
        congr 3
        omega
      · rw [List.getElem?_set_ne (by omega), ha i hi']
        by_cases hc : s.length - right ≤ i ∧ i < s.length - right + j
        · rw [if_pos hc, if_pos (by omega)]
        · rw [if_neg hc, if_neg (by omega)])
  refine ⟨out, e2, l2, ?_⟩
  intro p h
  rw [p2 p h]
  have hs1 : s1[p]? = some (if p < left then s[p] * f (p + 1) left else s[p]) := by
    by_cases hp : p < left
    · rw [if_pos hp]; exact p1 p h (by omega)
    · rw [if_neg hp, q1 p (by omega)]; exact List.getElem?_eq_getElem h
  rw [hs1]
  unfold ramped
  by_cases hc : s.length - right ≤ p
  · rw [if_pos (by omega)]
    simp only [hc, ↓reduceIte, Option.map_some]
  · rw [if_neg (by omega)]
    simp only [hc, ↓reduceIte]

/-- C41 (partial). For every signal, every ramp and every taper lengths: if the part after the muted start (the first
`k` samples, zero, followed by one that is not zero) is longer than both tapers, then the samples of the muted start
stay, the first `left` samples after it are multiplied by the ramp, the last `right` samples by the reversed ramp (a
sample under both by both) and all other samples stay.

The full claim is for every signal longer than the tapers: `C41_zero_refuted` and `C41_short_refuted`. -/
theorem C41_taper_partial (isZero : V → Bool) (f : Nat → Nat → V) (s : List V) (left right k : Nat)
    (hk : ∀ i (h : i < s.length), i < k → isZero s[i] = true) (hks : k < s.length) (hnz : isZero s[k] = false)
    (hl : left < s.length - k) (hr : right < s.length - k) (h64 : s.length < 2 ^ 64) (fuel : Nat) :
    ∃ out, taper isZero f (fuel + 2) s left right = .ok out ∧ out.length = s.length ∧
      ∀ i (h : i < s.length), out[i]? = some (
        if i < k then s[i]
        else
          let y := if i < k + left then s[i] * f (i - k + 1) left else s[i]
          if s.length - right ≤ i then y * f (s.length - i) right else y) := by
  have htw : s.takeWhile isZero = s.take k ∧ s.dropWhile isZero = s.drop k := by
    clear hl hr h64
    induction s generalizing k with
    | nil => simp at hks
    | cons x s ih =>
      cases k with
      | zero =>
        have : isZero x = false := hnz
        simp [this]
      | succ k =>
        have hx : isZero x = true := hk 0 (by simp) (by omega)
        have := ih k (fun i h hi => hk (i + 1) (by simpa using h) (by omega)) (by simpa using hks) (by simpa using hnz)
        simp [hx, this.1, this.2]
  have fin : ∀ (t : List V) (hsk : t = s.drop k), ∃ out, taperLoops t f left right = .ok out ∧
      out.length = s.length - k ∧ ∀ i (h : i < s.length), k ≤ i → out[i - k]? = some (
        let y := if i < k + left then s[i] * f (i - k + 1) left else s[i]
        if s.length - right ≤ i then y * f (s.length - i) right else y) := by
    intro t hsk
    have htl : t.length = s.length - k := by rw [hsk]; simp
    obtain ⟨out, e, l, p⟩ := taperLoops_spec t f left right (by omega) (by omega) (by omega)
    refine ⟨out, e, by omega, ?_⟩
    intro i h hi
    rw [p (i - k) (by omega)]
    have hti : t[i - k]'(by omega) = s[i] := by
      subst hsk
      rw [List.getElem_drop]
      congr 1
      omega
    rw [hti, htl]
    unfold ramped
    simp only [show (i - k < left) = (i < k + left) by apply propext; omega,
      show (s.length - k - right ≤ i - k) = (s.length - right ≤ i) by apply propext; omega,
      show s.length - k - (i - k) = s.length - i by omega]
  -- the loops after the muted start
  by_cases hk0 : k = 0
  · subst hk0
    obtain ⟨out, e, l, p⟩ := fin s (by simp)
    refine ⟨out, ?_, by omega, ?_⟩
    · unfold taper
      rw [if_neg (by omega), readAt_ok hks, Res.ok_bind, hnz]
      exact e
    · intro i h
      rw [if_neg (by omega)]
      exact p i h (by omega)
  · obtain ⟨out, e, l, p⟩ := fin (s.drop k) rfl
    have h0 : isZero (s[0]'(by omega)) = true := hk 0 (by omega) (by omega)
    have hd0 : (s.drop k)[0]'(by simp; omega) = s[k] := by simp
    refine ⟨s.take k ++ out, ?_, by simp; omega, ?_⟩
    · unfold taper
      rw [if_neg (by omega), readAt_ok (by omega), Res.ok_bind, h0]
      simp only [↓reduceIte, htw.1, htw.2]
      rw [readAt_ok (by simp; omega), Res.ok_bind, hd0, hnz]
      simp only [Bool.false_eq_true, ↓reduceIte, List.length_drop]
      unfold taper
      rw [Nat.min_eq_left (by omega), Nat.min_eq_left (by omega), if_neg (by simp; omega), readAt_ok (by simp; omega),
        Res.ok_bind, hd0, hnz]
      simp only [Bool.false_eq_true, ↓reduceIte]
      rw [e, Res.ok_bind]
    · intro i h
      by_cases hik : i < k
      · rw [if_pos hik, List.getElem?_append_left (by simp; omega), List.getElem?_take_of_lt hik]
        exact List.getElem?_eq_getElem h
      · rw [if_neg hik, List.getElem?_append_right (by simp; omega), List.length_take, Nat.min_eq_left (by omega)]
        exact p i h (by omega)

example : taper (· == 0) (fun a b => 10 * a + b) 2 [0, 0, 5, 6, 7, 8] 2 1 = .ok [0, 0, 5 * 12, 6 * 22, 7, 8 * 11] := by
  decide

/-- C41 fails for every muted signal: the search for the first sample that is not zero ends behind the signal, and that
place is read. -/
theorem C41_zero_refuted (isZero : V → Bool) (f : Nat → Nat → V) (s : List V) (left right fuel : Nat)
    (hl : left < s.length) (hr : right < s.length) (hz : ∀ x ∈ s, isZero x = true) :
    taper isZero f (fuel + 1) s left right = .ub := by
  have hd : s.dropWhile isZero = [] := by
    clear hl hr
    induction s with
    | nil => rfl
    | cons x s ih => rw [List.dropWhile_cons, hz x (by simp)]; exact ih (fun y hy => hz y (by simp [hy]))
  unfold taper
  rw [if_neg (by omega), readAt_ok (by omega), Res.ok_bind, hz _ (List.getElem_mem _)]
  simp only [↓reduceIte, hd]
  rfl

example : ∀ x ∈ [0, 0, 0], (x == 0) = true := by decide

/-- C41 fails for every signal whose part after a muted start of at least one sample is not longer than a taper,
although the signal is: the call ends in a failed assertion. -/
theorem C41_short_refuted (isZero : V → Bool) (f : Nat → Nat → V) (m t : List V) (left right fuel : Nat) (hm : m ≠ [])
    (hz : ∀ x ∈ m, isZero x = true) (ht : ∀ x, t.head? = some x → isZero x = false) (htn : t ≠ [])
    (hl : left < (m ++ t).length) (hr : right < (m ++ t).length) (hs : t.length ≤ left ∨ t.length ≤ right) :
    taper isZero f (fuel + 2) (m ++ t) left right = .abort := by
  have hd : (m ++ t).dropWhile isZero = t := by
    rw [List.dropWhile_append_of_pos hz]
    cases t with
    | nil => rfl
    | cons x t => rw [List.dropWhile_cons, ht x rfl]; rfl
  obtain ⟨x, t', rfl⟩ : ∃ x t', t = x :: t' := by
    cases t with
    | nil => exact absurd rfl htn
    | cons x t' => exact ⟨x, t', rfl⟩
  obtain ⟨y, m', rfl⟩ : ∃ y m', m = y :: m' := by
    cases m with
    | nil => exact absurd rfl hm
    | cons y m' => exact ⟨y, m', rfl⟩
  have hx : isZero x = false := ht x rfl
  have hy : isZero y = true := hz y (by simp)
  unfold taper
  rw [if_neg (by omega), List.cons_append, readAt_ok (by simp), Res.ok_bind]
  rw [List.cons_append] at hd
  simp only [List.getElem_cons_zero, hy, ↓reduceIte, hd]
  rw [readAt_ok (by simp), Res.ok_bind]
  simp only [List.getElem_cons_zero, hx, Bool.false_eq_true, ↓reduceIte]
  unfold taper
  rw [if_pos (by omega)]
  rfl

example : taper (· == 0) (fun a b => 10 * a + b) 2 [0, 0, 5, 6] 2 1 = .abort := by decide

end
end Verif.Signal
