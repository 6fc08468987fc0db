import Verif.Signal.Release
import Verif.Props.GainFloats
import Verif.Props.TempFilter

/-!
# C105: signal processing in the default build
-/

namespace Verif.Release
open Verif.Signal Verif.FP32

/-! ### Both builds do the same unless an assertion fails -/

/-- If the first does not end in a failed assertion, the second is the same. -/
def Keeps {A : Type} (a b : Res A) : Prop := a ≠ .abort → b = a

theorem Keeps.refl {A : Type} (a : Res A) : Keeps a a := fun _ => rfl

theorem Keeps.bind {A B : Type} {a b : Res A} {f g : A → Res B} (h : Keeps a b) (hf : ∀ x, Keeps (f x) (g x)) :
    Keeps (a >>= f) (b >>= g) := by
  intro hne
  cases a with
  | ok x => rw [h (fun e => nomatch e), Res.ok_bind, Res.ok_bind]; exact hf x hne
  | abort => exact absurd rfl hne
  | ub => rw [h (fun e => nomatch e)]; rfl

theorem Keeps.check {A : Type} {c : Prop} [Decidable c] {a b : Res A} (h : ¬ c → Keeps a b) :
    Keeps (if c then .abort else a) b := by
  by_cases hc : c
  · rw [if_pos hc]; exact fun h => absurd rfl h
  · rw [if_neg hc]; exact h hc

theorem Keeps.loop {S : Type} {f g : Nat → S → Res S} (h : ∀ j s, Keeps (f j s) (g j s)) :
    ∀ (n lo : Nat) (s : S), Keeps (forRange f lo n s) (forRange g lo n s) := by
  intro n
  induction n with
  | zero => exact fun _ _ => Keeps.refl _
  | succ n ih =>
    intro lo s
    rw [forRange_succ, forRange_succ]
    exact Keeps.bind (h lo s) fun s => ih (lo + 1) s

theorem rectangular_keeps (sqrtf : ℚ → ℚ) (win : List F32) (t : F32) (c : Nat) :
    Keeps (rectangularF sqrtf win t c) (rectangularR sqrtf win t c) := by
  unfold rectangularF rectangularR
  exact Keeps.check fun _ => Keeps.refl _

theorem triangular_keeps (sqrtf : ℚ → ℚ) (win : List F32) (t : F32) (c : Nat) (h64 : win.length < 2 ^ 64) :
    Keeps (triangularF sqrtf win t c) (triangularR sqrtf win t c) := by
  unfold triangularF triangularR
  refine Keeps.check fun h1 => Keeps.check fun h2 => ?_
  dsimp only
  rw [sub64_eq (a := win.length) (by omega) h64, sub64_eq (by omega) (by omega)]
  exact Keeps.bind (Keeps.refl _) fun amp => Keeps.check fun _ => Keeps.refl _

theorem mean_keeps (win : List F32) (t : F32) (c : Nat) : Keeps (meanAbsF win t c) (meanAbsR win t c) := by
  unfold meanAbsF meanAbsR
  exact Keeps.check fun _ => Keeps.check fun _ => Keeps.refl _

theorem median_keeps (win : List F32) (t : F32) (c : Nat) : Keeps (medianF win t c) (medianR win t c) := by
  unfold medianF medianR
  by_cases hn : win.length > 1 ∧ F32.nan ∈ win
  · rw [if_pos hn, if_pos hn]; exact Keeps.refl _
  · rw [if_neg hn, if_neg hn]
    dsimp only
    by_cases he : win.length % 2 = 0
    · rw [if_pos he, if_pos he]
      exact Keeps.bind (Keeps.refl _) fun a => Keeps.bind (Keeps.refl _) fun b => Keeps.check fun _ => Keeps.refl _
    · rw [if_neg he, if_neg he]
      exact Keeps.bind (Keeps.refl _) fun a => Keeps.check fun _ => Keeps.refl _

variable {V : Type}

theorem agc_keeps [Zero V] [Mul V] (s : List V) (g g' : GainFn V) (w : Nat) (t : V)
    (hg : ∀ win c, win.length ≤ s.length → Keeps (g win t c) (g' win t c)) : Keeps (agc s g w t) (agcR s g' w t) := by
  have hw : ∀ a len c (gain : List V) (j : Nat), Keeps (do
      let win ← window s a len
      let x ← g win t c
      writeAt gain j x) (do
      let win ← window s a len
      let x ← g' win t c
      writeAt gain j x) := by
    intro a len c gain j
    unfold window
    by_cases h : a + len ≤ s.length
    · rw [if_pos h, Res.ok_bind, Res.ok_bind]
      exact Keeps.bind (hg _ _ (by rw [List.length_take, List.length_drop]; omega)) fun _ => Keeps.refl _
    · rw [if_neg h]; exact Keeps.refl _
  unfold agc agcR
  refine Keeps.check fun _ => Keeps.check fun _ => ?_
  refine Keeps.bind (Keeps.loop (fun j gain => hw _ _ _ _ _) _ _ _) fun g1 => ?_
  refine Keeps.bind (Keeps.loop (fun j gain => hw _ _ _ _ _) _ _ _) fun g2 => ?_
  exact Keeps.bind (Keeps.loop (fun j gain => hw _ _ _ _ _) _ _ _) fun g3 => Keeps.refl _

theorem taper_keeps [Mul V] (isZero : V → Bool) (f : Nat → Nat → V) : ∀ (fuel : Nat) (s : List V) (l r : Nat), 2 ≤ fuel →
    Keeps (taper isZero f fuel s l r) (taperR isZero f fuel s l r)
  | 0, _, _, _, h => by omega
  | 1, _, _, _, h => by omega
  | fuel + 2, s, l, r, _ => by
    unfold taper taperR
    refine Keeps.check fun _ => Keeps.bind (Keeps.refl _) fun s0 => ?_
    by_cases h0 : isZero s0 = true
    · rw [if_pos h0, if_pos h0]
      dsimp only
      cases hd : s.dropWhile isZero with
      | nil =>
        intro _
        rw [readAt_ub (by simp)]
        unfold taperR
        rw [readAt_ub (by simp)]
        rfl
      | cons x tl =>
        rw [readAt_ok (by simp), Res.ok_bind]
        have hx : isZero x = false := by
          have := List.head?_dropWhile_not isZero s
          rw [hd] at this
          simpa using this
        rw [List.getElem_cons_zero, hx]
        simp only [Bool.false_eq_true, if_false]
        refine Keeps.bind ?_ fun _ => Keeps.refl _
        unfold taper taperR
        refine Keeps.check fun _ => ?_
        rw [readAt_ok (by simp), Res.ok_bind, Res.ok_bind, List.getElem_cons_zero, hx]
        simp only [Bool.false_eq_true, if_false]
        exact Keeps.refl _
    · rw [if_neg h0, if_neg h0]; exact Keeps.refl _

/-- **C105** (same results). A call that does not end in a failed assertion gives the same result in the default build: gain
control with each of the gains, tapers and filters. So what C40 to C45, C56, C95 and C103 say of calls that succeed holds there
too. -/
theorem C105_same :
    (∀ (sqrtf : ℚ → ℚ) (s : List F32) (w : Nat) (t : F32), s.length < 2 ^ 64 →
      (agc s (rectangularF sqrtf) w t ≠ .abort → agcR s (rectangularR sqrtf) w t = agc s (rectangularF sqrtf) w t) ∧
      (agc s (triangularF sqrtf) w t ≠ .abort → agcR s (triangularR sqrtf) w t = agc s (triangularF sqrtf) w t) ∧
      (agc s meanAbsF w t ≠ .abort → agcR s meanAbsR w t = agc s meanAbsF w t) ∧
      (agc s medianF w t ≠ .abort → agcR s medianR w t = agc s medianF w t)) ∧
    (∀ (V : Type) [Mul V] (isZero : V → Bool) (f : Nat → Nat → V) (s : List V) (l r : Nat),
      taper isZero f 2 s l r ≠ .abort → taperR isZero f 2 s l r = taper isZero f 2 s l r) ∧
    ∀ (V : Type) [Zero V] (nt ns : Nat) (trc : List V) (filter : Nat → List V → Res (List V)) (nw c : Nat),
      temporalFilter nt ns trc filter nw c ≠ .abort → temporalFilterR nt ns trc filter nw c = temporalFilter nt ns trc filter nw c := by
  refine ⟨fun sqrtf s w t h64 => ⟨?_, ?_, ?_, ?_⟩, ?_, ?_⟩
  · exact agc_keeps s _ _ w t fun win c _ => rectangular_keeps sqrtf win t c
  · exact agc_keeps s _ _ w t fun win c hl => triangular_keeps sqrtf win t c (by omega)
  · exact agc_keeps s _ _ w t fun win c _ => mean_keeps win t c
  · exact agc_keeps s _ _ w t fun win c _ => median_keeps win t c
  · intro V _ isZero f s l r
    exact taper_keeps isZero f 2 s l r (Nat.le_refl _)
  · intro V _ nt ns trc filter nw c
    unfold temporalFilter temporalFilterR
    exact Keeps.check fun _ => Keeps.refl _

/-- Not vacuous: a call that succeeds, and its result. -/
example : taper (· == 0) (fun a b => 10 * a + b) 2 [0, 0, 5, 6, 7, 8] 2 1 ≠ .abort ∧
    taperR (· == 0) (fun a b => 10 * a + b) 2 [0, 0, 5, 6, 7, 8] 2 1 = .ok [0, 0, 5 * 12, 6 * 22, 7, 8 * 11] := by decide

/-! ### Windows -/

section
variable [Zero V] [Mul V]

/-- **C105** (windows). In the default build gain control does what C40 says for every window size below the length of the signal,
and up to the length if that is odd and one more if it is even: the windows are clipped to the signal. -/
theorem C105_window (s : List V) (gainFn : GainFn V) (w : Nat) (target : V) (hw : 2 * (w / 2) ≤ s.length)
    (h64 : s.length < 2 ^ 64) (g : Nat → V)
    (hg : ∀ j, j < s.length →
      gainFn ((s.take (min s.length (j + w / 2 + 1))).drop (j - w / 2)) target (min j (w / 2)) = .ok (g j)) :
    ∃ out, agcR s gainFn w target = .ok out ∧ out.length = s.length ∧
      ∀ j (h : j < s.length), out[j]? = some (s[j] * g j) := by
  obtain ⟨ho1, ho2⟩ := odd_size w
  unfold agcR
  simp only
  rw [ho2]
  have hw2 : (if w % 2 = 0 then w + 1 else w) = 2 * half w + 1 := ho1
  rw [hw2]
  have hh : half w = w / 2 := rfl
  have hsub : sub64 s.length (half w) = s.length - half w := sub64_eq (by omega) h64
  have hgain : ∀ j, j < s.length → gainFn (clip s (half w) j) target (min j (half w)) = .ok (g j) := hg
  obtain ⟨g1, e1, l1, p1⟩ := gain_loop (n := s.length) (lo := 0) (cnt := half w) (fun j gain => do
      let win ← window s 0 (half w + j + 1)
      let g ← gainFn win target j
      writeAt gain j g) (fun j v => v = g j) (by omega) (by
    intro j gain _ hj
    refine ⟨g j, rfl, ?_⟩
    rw [window_clip s 0 (half w + j + 1) (half w) j (by unfold clipStart; omega) (by unfold clipEnd; omega), Res.ok_bind]
    have := hgain j (by omega)
    rw [show min j (half w) = j by omega] at this
    rw [this, Res.ok_bind]) (List.replicate s.length 0) (by simp) (by intro j hj; omega)
  rw [e1, Res.ok_bind]
  obtain ⟨g2, e2, l2, p2⟩ := gain_loop (n := s.length) (lo := half w) (cnt := s.length - half w - half w) (fun j gain => do
      let win ← window s (sub64 j (half w)) (2 * half w + 1)
      let g ← gainFn win target (half w)
      writeAt gain j g) (fun j v => v = g j) (by omega) (by
    intro j gain hj1 hj
    refine ⟨g j, rfl, ?_⟩
    rw [sub64_eq (by omega) (by omega),
      window_clip s (j - half w) (2 * half w + 1) (half w) j (by unfold clipStart; omega) (by unfold clipEnd; omega), Res.ok_bind]
    have := hgain j (by omega)
    rw [show min j (half w) = half w by omega] at this
    rw [this, Res.ok_bind]) g1 l1 (by intro j hj; exact p1 j (by omega))
  rw [hsub, e2, Res.ok_bind]
  obtain ⟨g3, e3, l3, p3⟩ := gain_loop (n := s.length) (lo := s.length - half w) (cnt := s.length - (s.length - half w))
    (fun j gain => do
      let dist := sub64 (sub64 s.length 1) j
      let win ← window s (sub64 j (half w)) (half w + dist + 1)
      let g ← gainFn win target (half w)
      writeAt gain j g) (fun j v => v = g j) (by omega) (by
    intro j gain hj1 hj
    refine ⟨g j, rfl, ?_⟩
    simp only
    rw [sub64_eq (a := s.length) (b := 1) (by omega) h64, sub64_eq (a := s.length - 1) (b := j) (by omega) (by omega),
      sub64_eq (a := j) (by omega) (by omega),
      window_clip s (j - half w) (half w + (s.length - 1 - j) + 1) (half w) j (by unfold clipStart; omega)
        (by unfold clipEnd; omega), Res.ok_bind]
    have := hgain j (by omega)
    rw [show min j (half w) = half w by omega] at this
    rw [this, Res.ok_bind]) g2 l2 (by intro j hj; exact p2 j (by omega))
  simp only at e3
  rw [e3, Res.ok_bind]
  obtain ⟨out, e4, l4, p4, _⟩ := forRange_inv (fun j signal => do
      let s ← readAt signal j
      let g ← readAt g3 j
      writeAt signal j (s * g)) (fun k out => out.length = s.length ∧
        (∀ j (h : j < s.length), j < k → out[j]? = some (s[j] * g j)) ∧ ∀ j, k ≤ j → out[j]? = s[j]?)
    s.length 0 s ⟨rfl, by intro j h hj; omega, by intro j _; rfl⟩ (by
    intro j t _ hj ⟨hl, ha, hb⟩
    obtain ⟨v, hv1, hv2⟩ := p3 j (by omega)
    have hj' : j < s.length := by omega
    have htj : t[j]? = some s[j] := by rw [hb j (Nat.le_refl _)]; exact List.getElem?_eq_getElem hj'
    refine ⟨t.set j (s[j] * g j), ?_, by simpa using hl, ?_, ?_⟩
    · rw [readAt_some htj, Res.ok_bind, readAt_some hv1, Res.ok_bind, hv2, writeAt_ok _ (by omega)]
    · intro k hk hk2
      by_cases hkj : k = j
      · subst hkj
        rw [List.getElem?_set_self (by omega)]
      · rw [List.getElem?_set_ne (by omega)]
        exact ha k hk (by omega)
    · intro k hk
      rw [List.getElem?_set_ne (by omega)]
      exact hb k (by omega))
  exact ⟨out, e4, l4, fun j h => p4 j h (by omega)⟩

/-- The window of three samples of a signal of three, and that of two samples, which is made three. -/
example : agcR [1, 2, 3] (fun win t c => .ok (win.sum + t + 100 * c)) 3 1000 = .ok [1 * 1003, 2 * 1106, 3 * 1105] ∧
    agcR [1, 2, 3] (fun win t c => .ok (win.sum + t + 100 * c)) 2 1000 = .ok [1 * 1003, 2 * 1106, 3 * 1105] := by decide

/-- **C105** fails for every window that is wider: where the assertion would end the program, samples outside the signal are read. -/
theorem C105_wide_refuted (s : List V) (gainFn : GainFn V) (w : Nat) (target : V) (hw : s.length < 2 * (w / 2))
    (hg : ∀ win c, ∃ g, gainFn win target c = .ok g) :
    agc s gainFn w target = .abort ∧ agcR s gainFn w target = .ub := by
  obtain ⟨ho1, ho2⟩ := odd_size w
  have hh : half w = w / 2 := rfl
  constructor
  · unfold agc
    simp only
    rw [if_pos (by rw [ho1]; omega)]
  · unfold agcR
    simp only
    rw [ho2]
    rw [forRange_ub _ (fun gain : List V => gain.length = s.length) (half w - 1) (half w) 0 (List.replicate s.length 0) (by simp) ?_
      (by omega) (by omega) ?_]
    · rfl
    · intro j gain _ hj hl
      unfold window
      by_cases h : 0 + (half w + j + 1) ≤ s.length
      · right
        rw [if_pos h, Res.ok_bind]
        obtain ⟨g, e⟩ := hg ((s.drop 0).take (half w + j + 1)) j
        exact ⟨gain.set j g, by rw [e, Res.ok_bind, writeAt_ok _ (by omega)], by simpa using hl⟩
      · left; rw [if_neg h]; rfl
    · intro gain hl
      unfold window
      rw [if_neg (by omega)]; rfl

example : [1, 2, 3].length < 2 * (4 / 2) ∧ ∀ (win : List Nat) c, ∃ g, (fun win t c => .ok (win.sum + t + c) : GainFn Nat) win 7 c = .ok g :=
  ⟨by decide, fun _ _ => ⟨_, rfl⟩⟩

end

/-! ### Muted stretches -/

/-- A float that is zero times the quotient of a float by zero. -/
theorem zero_quot (t : F32) : F32.num 0 * (t / F32.num 0) = F32.nan := by
  cases t with
  | num a =>
    have e : F32.num a / F32.num 0 = if a = 0 then F32.nan else F32.inf (decide (a < 0)) := by
      show F32.div (F32.num a) (F32.num 0) = _
      rw [F32.div, if_pos rfl]
    rw [e]
    by_cases h : a = 0
    · rw [if_pos h]; rfl
    · rw [if_neg h]; show F32.mul (F32.num 0) (F32.inf _) = _; rw [F32.mul, if_pos rfl]
  | inf s =>
    have e : F32.inf s / F32.num 0 = F32.inf (s != decide ((0 : ℚ) < 0)) := rfl
    rw [e]
    show F32.mul (F32.num 0) (F32.inf _) = _; rw [F32.mul, if_pos rfl]
  | nan => rfl

theorem of_zero : F32.of 0 = F32.num 0 := by rw [fin_of (by norm_num), rnd_zero]

theorem fold_zero (win : List F32) (h : ∀ x ∈ win, x = 0) : win.foldl (fun amp x => amp + x * x) 0 = (0 : F32) := by
  induction win with
  | nil => rfl
  | cons x win ih =>
    rw [List.foldl_cons, h x (by simp)]
    have : (0 : F32) + 0 * 0 = 0 := by
      rw [F32.zero_def, F32.num_mul, mul_zero, of_zero, F32.num_add, add_zero, of_zero]
    rw [this]
    exact ih fun y hy => h y (by simp [hy])

theorem sum_zero (win : List F32) (h : ∀ x ∈ win, x = 0) : win.foldl (· + ·) 0 = (0 : F32) := by
  induction win with
  | nil => rfl
  | cons x win ih =>
    rw [List.foldl_cons, h x (by simp)]
    have : (0 : F32) + 0 = 0 := by rw [F32.zero_def, F32.num_add, add_zero, of_zero]
    rw [this]
    exact ih fun y hy => h y (by simp [hy])

theorem count_zero (win : List F32) (h : ∀ x ∈ win, x = 0) : win.countP (fun x => decide (x ≠ 0)) = 0 := by
  rw [List.countP_eq_zero]
  intro x hx
  simp [h x hx]

theorem zero_div_one : (0 : F32) / F32.of ((max 1 0 : Nat) : ℚ) = 0 := by
  have h1 : F32.of ((max 1 0 : Nat) : ℚ) = F32.num 1 := cnt_exact (F := 1) (by norm_num)
  rw [h1, F32.zero_def, F32.num_div _ _ (by norm_num), zero_div, of_zero]

theorem rectangular_zero (sqrtf : ℚ → ℚ) (h0 : sqrtf 0 = 0) (win : List F32) (t : F32) (c : Nat) (h : ∀ x ∈ win, x = 0) :
    rectangularR sqrtf win t c = .ok (t / F32.num 0) := by
  unfold rectangularR
  dsimp only
  rw [fold_zero win h, count_zero win h, zero_div_one]
  have : F32.sqrt sqrtf 0 = F32.num 0 := by
    show (if (0 : ℚ) < 0 then F32.nan else F32.num (sqrtf 0)) = _
    rw [if_neg (by norm_num), h0]
  rw [this]

theorem mean_zero (win : List F32) (t : F32) (c : Nat) (h : ∀ x ∈ win, x = 0) : meanAbsR win t c = .ok (t / F32.num 0) := by
  unfold meanAbsR
  dsimp only
  rw [sum_zero win h, count_zero win h]
  have : absF 0 = 0 := by show F32.num |0| = F32.num 0; rw [abs_zero]
  rw [this, zero_div_one]
  rfl

theorem median_zero (win : List F32) (t : F32) (c : Nat) (h : ∀ x ∈ win, x = 0) (hl : win.length ≠ 0) (hl2 : win.length ≠ 2) :
    medianR win t c = .ok (t / F32.num 0) := by
  unfold medianR
  rw [if_neg (by
    rintro ⟨-, hn⟩
    have := h _ hn
    rw [F32.zero_def] at this
    cases this)]
  dsimp only
  have hlen : (win.insertionSort fun a b => ltF b a = false).length = win.length := List.length_insertionSort _ _
  have hz : ∀ (i : Nat) (hi : i < (win.insertionSort fun a b => ltF b a = false).length),
      (win.insertionSort fun a b => ltF b a = false)[i] = 0 := fun i hi =>
    h _ ((List.mem_insertionSort _).1 (List.getElem_mem hi))
  by_cases he : win.length % 2 = 0
  · rw [if_pos he, readAt_ok (by omega), Res.ok_bind, readAt_ok (by omega), Res.ok_bind, hz, hz]
    have : ((0 : F32) + 0) / F32.num 2 = F32.num 0 := by
      rw [F32.zero_def, F32.num_add, add_zero, of_zero, F32.num_div _ _ (by norm_num), zero_div, of_zero]
    rw [this]
  · rw [if_neg he, readAt_ok (by omega), Res.ok_bind, hz]
    rfl

/-- Half-widths are numbers that a float can tell from zero. -/
theorem of_nat_pos {n : Nat} (h1 : 1 ≤ n) (h2 : n < 2 ^ 64) : ∃ q : ℚ, F32.of (n : ℚ) = F32.num q ∧ 1 ≤ q := by
  have hn : (n : ℚ) ≤ 2 ^ 64 := by exact_mod_cast h2.le
  have hp : (1 : ℚ) ≤ n := by exact_mod_cast h1
  refine ⟨rnd n, fin_of ?_, rnd_ge ⟨1, 0, by norm_num, by norm_num, by norm_num⟩ hp⟩
  rw [abs_of_nonneg (by linarith)]
  exact hn.trans (by norm_num)

theorem of_nat {n : Nat} (h2 : n < 2 ^ 64) : ∃ q : ℚ, F32.of (n : ℚ) = F32.num q := by
  have hn : (n : ℚ) ≤ 2 ^ 64 := by exact_mod_cast h2.le
  refine ⟨rnd n, fin_of ?_⟩
  rw [abs_of_nonneg (by positivity)]
  exact hn.trans (by norm_num)

theorem triangular_zero (sqrtf : ℚ → ℚ) (h0 : sqrtf 0 = 0) (win : List F32) (t : F32) (c : Nat) (h : ∀ x ∈ win, x = 0)
    (hc : c < win.length) (h2 : 2 ≤ win.length) (h24 : win.length ≤ 2 ^ 20) : triangularR sqrtf win t c = .ok (t / F32.num 0) := by
  unfold triangularR
  dsimp only
  rw [sub64_eq (a := win.length) (by omega) (by omega), sub64_eq (by omega) (by omega)]
  have hhalf : F32.of ((max c (win.length - 1 - c) : Nat) : ℚ) = F32.num ((max c (win.length - 1 - c) : Nat) : ℚ) :=
    cnt_exact (by omega)
  rw [hhalf]
  have hpos : (0 : ℚ) < ((max c (win.length - 1 - c) : Nat) : ℚ) := by exact_mod_cast (by omega : 0 < max c (win.length - 1 - c))
  have hbig : ∀ d : Nat, d ≤ max c (win.length - 1 - c) → ∃ q : ℚ, 1 - F32.of (d : ℚ) / F32.num ((max c (win.length - 1 - c) : Nat) : ℚ) = F32.num q := by
    intro d hd
    have hle : (d : ℚ) / ((max c (win.length - 1 - c) : Nat) : ℚ) ≤ 1 := by
      rw [div_le_one hpos]; exact_mod_cast hd
    have hge : 0 ≤ (d : ℚ) / ((max c (win.length - 1 - c) : Nat) : ℚ) := by positivity
    rw [cnt_exact (by omega), F32.num_div _ _ hpos.ne', fin_of (by rw [abs_of_nonneg hge]; exact hle.trans (by norm_num))]
    have hr : rnd ((d : ℚ) / ((max c (win.length - 1 - c) : Nat) : ℚ)) ≤ 1 := rnd_le ⟨1, 0, by norm_num, by norm_num, by norm_num⟩ hle
    have hr0 : 0 ≤ rnd ((d : ℚ) / ((max c (win.length - 1 - c) : Nat) : ℚ)) := by
      have := rnd_mono hge
      rwa [rnd_zero] at this
    rw [F32.one_def, F32.num_sub, fin_of (by rw [abs_le]; constructor <;> linarith [show (1 : ℚ) ≤ 2 ^ 120 by norm_num])]
    exact ⟨_, rfl⟩
  obtain ⟨amp, e, hamp⟩ := forRange_inv (fun j amp => do
    let x ← readAt win j
    let dist := if j > c then j - c else c - j
    let scaling := 1 - F32.of (dist : ℚ) / F32.num ((max c (win.length - 1 - c) : Nat) : ℚ)
    let scaled := x * scaling
    .ok (amp + scaled * scaled)) (fun _ amp => amp = (0 : F32)) win.length 0 (0 : F32) rfl (by
      intro j a _ hj ha
      subst ha
      rw [readAt_ok (by omega), Res.ok_bind, h _ (List.getElem_mem _)]
      obtain ⟨q, hq⟩ := hbig (if j > c then j - c else c - j) (by split <;> omega)
      dsimp only
      rw [hq]
      refine ⟨_, rfl, ?_⟩
      rw [F32.zero_def, F32.num_mul, zero_mul, of_zero, F32.num_mul, zero_mul, of_zero, F32.num_add, add_zero, of_zero])
  dsimp only at e
  rw [e, Res.ok_bind, hamp, count_zero win h, zero_div_one]
  have : F32.sqrt sqrtf 0 = F32.num 0 := by
    show (if (0 : ℚ) < 0 then F32.nan else F32.num (sqrtf 0)) = _
    rw [if_neg (by norm_num), h0]
  rw [this]

/-- Every gain used without assertions, on a window as gain control cuts it: it gives a value, and for a window of zeros that value
is a quotient by zero. -/
theorem muted (s : List F32) (g : GainFn F32) (w : Nat) (t : F32) (hw : 2 * (w / 2) ≤ s.length) (h64 : s.length < 2 ^ 64)
    (hok : ∀ win c, c < win.length → w / 2 + 1 ≤ win.length → win.length ≤ 2 * (w / 2) + 1 → (∀ x ∈ win, x ∈ s) → ∃ v, g win t c = .ok v)
    (hz : ∀ win c, c < win.length → w / 2 + 1 ≤ win.length → win.length ≤ 2 * (w / 2) + 1 → (∀ x ∈ win, x = 0) →
      g win t c = .ok (t / F32.num 0)) :
    ∃ out, agcR s g w t = .ok out ∧ out.length = s.length ∧
      ∀ j, j < s.length → (∀ i x, s[i]? = some x → j ≤ i + w / 2 → i ≤ j + w / 2 → x = 0) → out[j]? = some F32.nan := by
  have hlen : ∀ j, j < s.length → ((s.take (min s.length (j + w / 2 + 1))).drop (j - w / 2)).length =
      min s.length (j + w / 2 + 1) - (j - w / 2) := fun j hj => by
    rw [List.length_drop, List.length_take]; omega
  have hex : ∀ j, j < s.length → ∃ v, g ((s.take (min s.length (j + w / 2 + 1))).drop (j - w / 2)) t (min j (w / 2)) = .ok v :=
    fun j hj => hok _ _ (by rw [hlen j hj]; omega) (by rw [hlen j hj]; omega) (by rw [hlen j hj]; omega)
      fun x hx => List.mem_of_mem_take (List.mem_of_mem_drop hx)
  let v : Nat → F32 := fun j => if h : j < s.length then (hex j h).choose else 0
  obtain ⟨out, h1, h2, h3⟩ := C105_window s g w t hw h64 v (fun j hj => by
    have : v j = (hex j hj).choose := dif_pos hj
    rw [this]; exact (hex j hj).choose_spec)
  refine ⟨out, h1, h2, fun j hj hzero => ?_⟩
  rw [h3 j hj]
  have hsj : s[j] = 0 := hzero j s[j] (List.getElem?_eq_getElem hj) (by omega) (by omega)
  have hv : v j = t / F32.num 0 := by
    have e : v j = (hex j hj).choose := dif_pos hj
    have e2 := (hex j hj).choose_spec
    rw [← e, hz _ _ (by rw [hlen j hj]; omega) (by rw [hlen j hj]; omega) (by rw [hlen j hj]; omega) (by
      intro x hx
      obtain ⟨i, hi⟩ := List.mem_iff_getElem?.1 hx
      have hil : i < ((s.take (min s.length (j + w / 2 + 1))).drop (j - w / 2)).length := (List.getElem?_eq_some_iff.1 hi).1
      rw [hlen j hj] at hil
      rw [List.getElem?_drop, List.getElem?_take_of_lt (by omega)] at hi
      exact hzero _ x hi (by omega) (by omega)), Res.ok.injEq] at e2
    exact e2.symm
  rw [hsj, hv, F32.zero_def, zero_quot]

theorem triangular_ok (sqrtf : ℚ → ℚ) (win : List F32) (t : F32) (c : Nat) : ∃ v, triangularR sqrtf win t c = .ok v := by
  unfold triangularR
  dsimp only
  obtain ⟨amp, e, _⟩ := forRange_inv (fun j amp => do
    let x ← readAt win j
    let dist := if j > c then j - c else c - j
    let scaling := 1 - F32.of (dist : ℚ) / F32.of ((max c (sub64 (sub64 win.length 1) c) : Nat) : ℚ)
    let scaled := x * scaling
    .ok (amp + scaled * scaled)) (fun _ _ => True) win.length 0 (0 : F32) trivial (by
      intro j a _ hj _
      rw [readAt_ok (by omega), Res.ok_bind]
      exact ⟨_, rfl, trivial⟩)
  dsimp only at e
  rw [e, Res.ok_bind]
  exact ⟨_, rfl⟩

theorem median_ok (win : List F32) (t : F32) (c : Nat) (hn : F32.nan ∉ win) (h0 : win.length ≠ 0) (h2 : win.length ≠ 2) :
    ∃ v, medianR win t c = .ok v := by
  unfold medianR
  rw [if_neg (fun h => hn h.2)]
  dsimp only
  have hlen : (win.insertionSort fun a b => ltF b a = false).length = win.length := List.length_insertionSort _ _
  by_cases he : win.length % 2 = 0
  · rw [if_pos he, readAt_ok (by omega), Res.ok_bind, readAt_ok (by omega), Res.ok_bind]; exact ⟨_, rfl⟩
  · rw [if_neg he, readAt_ok (by omega), Res.ok_bind]; exact ⟨_, rfl⟩

/-- **C105** fails for muted stretches: in the default build gain control replaces every sample all of whose window is zero by
not-a-number, whatever the target and the gain, and reports nothing. (For the triangular gain windows of at least two samples, for
the median windows of at least four.) -/
theorem C105_muted_refuted (sqrtf : ℚ → ℚ) (h0 : sqrtf 0 = 0) (s : List F32) (w : Nat) (t : F32) (hw : 2 * (w / 2) ≤ s.length)
    (h64 : s.length < 2 ^ 64) (g : GainFn F32)
    (hg : g = rectangularR sqrtf ∨ g = meanAbsR ∨ (g = triangularR sqrtf ∧ 2 ≤ w ∧ w < 2 ^ 20) ∨ (g = medianR ∧ 4 ≤ w ∧ F32.nan ∉ s)) :
    ∃ out, agcR s g w t = .ok out ∧ out.length = s.length ∧
      ∀ j, j < s.length → (∀ i x, s[i]? = some x → j ≤ i + w / 2 → i ≤ j + w / 2 → x = 0) → out[j]? = some F32.nan := by
  rcases hg with rfl | rfl | ⟨rfl, hw2, hw3⟩ | ⟨rfl, hw4, hn⟩
  · exact muted s _ w t hw h64 (fun _ _ _ _ _ _ => ⟨_, rfl⟩) fun win c _ _ _ h => rectangular_zero sqrtf h0 win t c h
  · exact muted s _ w t hw h64 (fun _ _ _ _ _ _ => ⟨_, rfl⟩) fun win c _ _ _ h => mean_zero win t c h
  · exact muted s _ w t hw h64 (fun win c _ _ _ _ => triangular_ok sqrtf win t c)
      fun win c hc h2 h3 h => triangular_zero sqrtf h0 win t c h hc (by omega) (by omega)
  · exact muted s _ w t hw h64 (fun win c _ h2 _ hs => median_ok win t c (fun h => hn (hs _ h)) (by omega) (by omega))
      fun win c _ h2 _ h => median_zero win t c h (by omega) (by omega)

/-- A stretch of four zeros in a signal of six samples, windows of three: two samples become not-a-number. -/
example : ∀ j, j = 1 ∨ j = 2 → ∀ i x, [(0 : F32), 0, 0, 0, 1, 1][i]? = some x → j ≤ i + 3 / 2 → i ≤ j + 3 / 2 → x = 0 := by
  intro j hj i x hx _ h
  have hi : i < 4 := by omega
  have : i = 0 ∨ i = 1 ∨ i = 2 ∨ i = 3 := by omega
  rcases this with rfl | rfl | rfl | rfl <;> (injection hx with hx; exact hx.symm)

/-! ### Quiet stretches -/

theorem fold_quiet (win : List F32) (h : ∀ x ∈ win, ∃ q : ℚ, x = F32.num q ∧ |q| < 1 / 2 ^ 75) :
    win.foldl (fun amp x => amp + x * x) 0 = (0 : F32) := by
  induction win with
  | nil => rfl
  | cons x win ih =>
    obtain ⟨v, rfl, hv⟩ := h x (by simp)
    rw [List.foldl_cons, F32.num_mul, fin_of (by
      rw [abs_mul]
      have h1 : (1 : ℚ) / 2 ^ 75 ≤ 1 := by norm_num
      have := mul_le_mul (hv.le.trans h1) (hv.le.trans h1) (abs_nonneg _) (by norm_num)
      exact this.trans (by norm_num)), sq_lost hv, F32.zero_def, F32.num_add, add_zero, of_zero]
    exact ih fun y hy => h y (by simp [hy])

/-- **C105** fails for quiet stretches: in the default build a sample that is not zero becomes infinite if the samples of its
window are all below `2 ^ -75` in magnitude, for every positive target (rectangular windows of up to a million samples). -/
theorem C105_quiet_refuted (sqrtf : ℚ → ℚ) (h0 : sqrtf 0 = 0) (s : List F32) (w : Nat) (t : ℚ) (ht : 0 < t)
    (hw : 2 * (w / 2) ≤ s.length) (h64 : s.length < 2 ^ 64) (hw' : w < 2 ^ 20) :
    ∃ out, agcR s (rectangularR sqrtf) w (F32.num t) = .ok out ∧ out.length = s.length ∧
      ∀ (j : Nat) (q : ℚ), s[j]? = some (F32.num q) → q ≠ 0 →
        (∀ i x, s[i]? = some x → j ≤ i + w / 2 → i ≤ j + w / 2 → ∃ q : ℚ, x = F32.num q ∧ |q| < 1 / 2 ^ 75) →
        ∃ neg, out[j]? = some (F32.inf neg) := by
  obtain ⟨out, h1, h2, h3⟩ := C105_window s (rectangularR sqrtf) w (F32.num t) hw h64 _ (fun j hj => rfl)
  refine ⟨out, h1, h2, fun j q hq hq0 hwin => ?_⟩
  obtain ⟨hj, hjq⟩ := List.getElem?_eq_some_iff.1 hq
  rw [h3 j hj, hjq]
  have hl : ((s.take (min s.length (j + w / 2 + 1))).drop (j - w / 2)).length = min s.length (j + w / 2 + 1) - (j - w / 2) := by
    rw [List.length_drop, List.length_take]; omega
  rw [fold_quiet _ (by
    intro x hx
    obtain ⟨i, hi⟩ := List.mem_iff_getElem?.1 hx
    have hil := (List.getElem?_eq_some_iff.1 hi).1
    rw [hl] at hil
    rw [List.getElem?_drop, List.getElem?_take_of_lt (by omega)] at hi
    exact hwin _ x hi (by omega) (by omega))]
  generalize hcnt : List.countP _ _ = cnt
  have hc : cnt ≤ 2 ^ 20 := by
    rw [← hcnt]
    refine List.countP_le_length.trans ?_
    rw [hl]; omega
  have hdiv : (0 : F32) / F32.of ((max 1 cnt : Nat) : ℚ) = F32.num 0 := by
    rw [cnt_exact (by omega), F32.zero_def, F32.num_div _ _ (by exact_mod_cast (by omega : max 1 cnt ≠ 0)), zero_div, of_zero]
  have hsq : F32.sqrt sqrtf (F32.num 0) = F32.num 0 := by
    show (if (0 : ℚ) < 0 then F32.nan else F32.num (sqrtf 0)) = _
    rw [if_neg (by norm_num), h0]
  have hq2 : F32.num t / F32.num 0 = F32.inf (decide (t < 0)) := by
    show F32.div (F32.num t) (F32.num 0) = _
    rw [F32.div, if_pos rfl, if_neg ht.ne']
  rw [hdiv, hsq, hq2]
  have : F32.num q * F32.inf (decide (t < 0)) = F32.inf (decide (t < 0) != decide (q < 0)) := by
    show F32.mul _ _ = _
    rw [F32.mul, if_neg hq0]
  exact ⟨_, by rw [this]⟩

/-! ### Tapers -/

section
variable [Mul V]

/-- **C105** (tapers). In the default build a signal with a muted start gets tapers cut to the part after it, so that every signal
longer than the tapers, or as long, with a sample that is not zero gets what C41 says with these lengths. -/
theorem C105_taper (isZero : V → Bool) (f : Nat → Nat → V) (s : List V) (left right k : Nat)
    (hk : ∀ i (h : i < s.length), i < k → isZero s[i] = true) (hks : k < s.length) (hnz : isZero s[k] = false)
    (hl : left ≤ s.length) (hr : right ≤ s.length) (h64 : s.length < 2 ^ 64) :
    ∃ out, taperR isZero f 2 s left right = .ok out ∧ out.length = s.length ∧
      ∀ i (h : i < s.length), out[i]? = some (
        if i < k then s[i]
        else
          let l := min left (s.length - k)
          let r := min right (s.length - k)
          let y := if i < k + l then s[i] * f (i - k + 1) l else s[i]
          if s.length - r ≤ i then y * f (s.length - i) r else y) := by
  have htw : s.takeWhile isZero = s.take k ∧ s.dropWhile isZero = s.drop k := by
    clear hl hr h64
    induction s generalizing k with
    | nil => simp at hks
    | cons x s ih =>
      cases k with
      | zero =>
        have : isZero x = false := hnz
        simp [this]
      | succ k =>
        have hx : isZero x = true := hk 0 (by simp) (by omega)
        have := ih k (fun i h hi => hk (i + 1) (by simpa using h) (by omega)) (by simpa using hks) (by simpa using hnz)
        simp [hx, this.1, this.2]
  have fin : ∀ (t : List V) (hsk : t = s.drop k) (l r : Nat), l ≤ s.length - k → r ≤ s.length - k →
      ∃ out, taperLoops t f l r = .ok out ∧
      out.length = s.length - k ∧ ∀ i (h : i < s.length), k ≤ i → out[i - k]? = some (
        let y := if i < k + l then s[i] * f (i - k + 1) l else s[i]
        if s.length - r ≤ i then y * f (s.length - i) r else y) := by
    intro t hsk l r hl hr
    have htl : t.length = s.length - k := by rw [hsk]; simp
    obtain ⟨out, e, hlo, p⟩ := taperLoops_spec t f l r (by omega) (by omega) (by omega)
    refine ⟨out, e, by omega, ?_⟩
    intro i h hi
    rw [p (i - k) (by omega)]
    have hti : t[i - k]'(by omega) = s[i] := by
      subst hsk
      rw [List.getElem_drop]
      congr 1
      omega
    rw [hti, htl]
    unfold ramped
    simp only [show (i - k < l) = (i < k + l) by apply propext; omega,
      show (s.length - k - r ≤ i - k) = (s.length - r ≤ i) by apply propext; omega,
      show s.length - k - (i - k) = s.length - i by omega]
  by_cases hk0 : k = 0
  · subst hk0
    obtain ⟨out, e, l, p⟩ := fin s (by simp) (min left (s.length - 0)) (min right (s.length - 0)) (by omega) (by omega)
    refine ⟨out, ?_, by omega, ?_⟩
    · unfold taperR
      rw [readAt_ok hks, Res.ok_bind, hnz]
      rw [Nat.min_eq_left (by omega), Nat.min_eq_left (by omega)] at e
      exact e
    · intro i h
      rw [if_neg (by omega)]
      exact p i h (by omega)
  · obtain ⟨out, e, l, p⟩ := fin (s.drop k) rfl (min left (s.length - k)) (min right (s.length - k)) (by omega) (by omega)
    have h0 : isZero (s[0]'(by omega)) = true := hk 0 (by omega) (by omega)
    have hd0 : (s.drop k)[0]'(by simp; omega) = s[k] := by simp
    refine ⟨s.take k ++ out, ?_, by simp; omega, ?_⟩
    · unfold taperR
      rw [readAt_ok (by omega), Res.ok_bind, h0]
      simp only [↓reduceIte, htw.1, htw.2, List.length_drop]
      unfold taperR
      rw [readAt_ok (by simp; omega), Res.ok_bind, hd0, hnz]
      simp only [Bool.false_eq_true, ↓reduceIte]
      rw [e, Res.ok_bind]
    · intro i h
      by_cases hik : i < k
      · rw [if_pos hik, List.getElem?_append_left (by simp; omega), List.getElem?_take_of_lt hik]
        exact List.getElem?_eq_getElem h
      · rw [if_neg hik, List.getElem?_append_right (by simp; omega), List.length_take, Nat.min_eq_left (by omega)]
        exact p i h (by omega)

/-- The signal that ends the program in the other build, and a signal as long as its taper. -/
example : taper (· == 0) (fun a b => 10 * a + b) 2 [0, 0, 5, 6] 3 1 = .abort ∧
    taperR (· == 0) (fun a b => 10 * a + b) 2 [0, 0, 5, 6] 3 1 = .ok [0, 0, 5 * 12, 6 * 22 * 11] ∧
    taperR (· == 0) (fun a b => 10 * a + b) 2 [5, 6] 2 0 = .ok [5 * 12, 6 * 22] := by decide

/-- **C105** fails for every signal that does not start muted and is shorter than a taper: samples outside it are changed. -/
theorem C105_taper_refuted (isZero : V → Bool) (f : Nat → Nat → V) (s : List V) (left right : Nat) (x : V) (hx : s[0]? = some x)
    (hnz : isZero x = false) (h : s.length < left ∨ s.length < right) (h64 : s.length < 2 ^ 63) (hr64 : right < 2 ^ 64) :
    taper isZero f 2 s left right = .abort ∧ taperR isZero f 2 s left right = .ub := by
  constructor
  · unfold taper
    rw [if_pos (by omega)]
  · have hstep : ∀ (n i : Nat) (v : V → V) (t : List V), t.length = n →
        (do let s ← readAt t i; writeAt t i (v s) : Res (List V)) = .ub ∨
          ∃ t', (do let s ← readAt t i; writeAt t i (v s) : Res (List V)) = .ok t' ∧ t'.length = n := by
      intro n i v t ht
      by_cases hi : i < t.length
      · right
        rw [readAt_ok hi, Res.ok_bind, writeAt_ok _ hi]
        exact ⟨_, rfl, by simpa using ht⟩
      · left
        rw [readAt_ub (by omega)]; rfl
    unfold taperR
    rw [readAt_some hx, Res.ok_bind, hnz]
    simp only [Bool.false_eq_true, ↓reduceIte]
    unfold taperLoops
    by_cases hl : s.length < left
    · rw [forRange_ub _ (fun t : List V => t.length = s.length) s.length left 0 s rfl
        (fun j t _ _ ht => hstep _ j (fun y => y * f (j + 1) left) t ht) (by omega) (by omega)
        (fun t ht => by rw [readAt_ub (by omega)]; rfl)]
      rfl
    · obtain ⟨t, e, ht⟩ := forRange_inv (fun j signal => do
        let s ← readAt signal j
        writeAt signal j (s * f (j + 1) left)) (fun _ t => t.length = s.length) left 0 s rfl (by
          intro j t _ hj ht
          rw [readAt_ok (by omega), Res.ok_bind, writeAt_ok _ (by omega)]
          exact ⟨_, rfl, by simpa using ht⟩)
      rw [e, Res.ok_bind]
      refine forRange_ub _ (fun t : List V => t.length = s.length) 0 right 0 t ht
        (fun j t _ _ ht => hstep _ (sub64 t.length right + j) (fun y => y * f (sub64 right j) right) t ht) (by omega) (by omega) ?_
      intro t ht
      dsimp only
      rw [readAt_ub (by rw [ht, sub64_wrap (by omega) hr64]; omega)]
      rfl

example : [5, 6][0]? = some 5 ∧ ((5 : Nat) == 0) = false ∧ [5, 6].length < 3 := by decide

/-- **C105** fails for every muted signal: the sample behind the signal is read. -/
theorem C105_zero_refuted (isZero : V → Bool) (f : Nat → Nat → V) (s : List V) (left right : Nat) (hz : ∀ x ∈ s, isZero x = true) :
    taperR isZero f 2 s left right = .ub := by
  have hd : s.dropWhile isZero = [] := by
    induction s with
    | nil => rfl
    | cons x s ih => rw [List.dropWhile_cons, hz x (by simp)]; exact ih (fun y hy => hz y (by simp [hy]))
  unfold taperR
  cases s with
  | nil => rfl
  | cons x s =>
    rw [readAt_ok (by simp), Res.ok_bind, hz _ (List.getElem_mem _)]
    simp only [↓reduceIte, hd]
    rfl

example : ∀ x ∈ [0, 0, 0], (x == 0) = true := by decide

end

/-! ### Filters -/

theorem copy_total [Zero V] (n : Nat) (src : List V) (start : Nat) (dst : List V) (d0 : Nat) :
    copyLoop n src start dst d0 = .ub ∨ ∃ out, copyLoop n src start dst d0 = .ok out ∧ out.length = dst.length := by
  unfold copyLoop
  have : ∀ (n lo : Nat) (dst : List V), forRange (fun i dst => do
      let v ← readAt src (add64 start i)
      writeAt dst (add64 d0 i) v) lo n dst = .ub ∨ ∃ out, forRange (fun i dst => do
      let v ← readAt src (add64 start i)
      writeAt dst (add64 d0 i) v) lo n dst = .ok out ∧ out.length = dst.length := by
    intro n
    induction n with
    | zero => intro lo dst; exact Or.inr ⟨dst, rfl, rfl⟩
    | succ n ih =>
      intro lo dst
      rw [forRange_succ]
      unfold readAt
      cases src[add64 start lo]? with
      | none => exact Or.inl rfl
      | some v =>
        simp only [Res.ok_bind]
        unfold writeAt
        split
        · rw [Res.ok_bind]
          rcases ih (lo + 1) (dst.set (add64 d0 lo) v) with h | ⟨out, h, hl⟩
          · exact Or.inl h
          · exact Or.inr ⟨out, h, by simpa using hl⟩
        · exact Or.inl rfl
  exact this n 0 dst

/-- **C105** fails for every window centre at or behind the end of the trace: in the default build samples of the next traces are
filtered, and samples behind the last trace. -/
theorem C105_filter_refuted [Zero V] (nt ns : Nat) (trc : List V) (filter : Nat → List V → Res (List V)) (nw c : Nat)
    (hnt : 1 ≤ nt) (hlen : trc.length = nt * ns) (h64 : nt * ns + c + ns < 2 ^ 63) (hns : 1 ≤ ns) (hc : ns ≤ c)
    (hf : ∀ n w, filter n w ≠ .abort) :
    temporalFilter nt ns trc filter nw c = .abort ∧ temporalFilterR nt ns trc filter nw c = .ub := by
  constructor
  · unfold temporalFilter
    dsimp only
    rw [if_pos (by rw [if_neg (by omega)]; omega)]
  · unfold temporalFilterR
    dsimp only
    rw [if_neg (show ¬ c = 0 by omega)]
    generalize hw0 : (if nw = 0 ∨ nw > ns then ns else nw) = n
    have hn : 1 ≤ n ∧ n ≤ ns := by rw [← hw0]; split <;> omega
    generalize hw : (if n % 2 ≠ 0 then n else sub64 n 1) = w
    have hw1 : 1 ≤ w ∧ w ≤ ns := by
      rw [← hw]
      split
      · exact hn
      · rw [sub64_eq (by omega) (by omega)]; omega
    have hlast : (nt - 1) * ns + ns = nt * ns := by
      rw [← Nat.succ_mul, Nat.succ_eq_add_one, Nat.sub_add_cancel hnt]
    refine forRange_ub _ (fun s => s.length = nt * ns) (nt - 1) nt 0 trc hlen ?_ (by omega) (by omega) ?_
    · intro j s _ _ hs
      unfold windowStep
      rcases copy_total w s (add64 (j * ns) (sub64 c (w / 2))) (List.replicate w 0) 0 with h | ⟨win, h, _⟩
      · rw [h]; exact Or.inl rfl
      · rw [h, Res.ok_bind]
        cases hfw : filter w win with
        | ub => exact Or.inl rfl
        | abort => exact absurd hfw (hf _ _)
        | ok g =>
          rw [Res.ok_bind]
          rcases copy_total w g 0 s (add64 (j * ns) (sub64 c (w / 2))) with h | ⟨out, h, hl⟩
          · exact Or.inl h
          · exact Or.inr ⟨out, h, by omega⟩
    · intro s hs
      unfold windowStep
      have hidx : s.length ≤ add64 (add64 ((nt - 1) * ns) (sub64 c (w / 2))) (w - 1) := by
        rw [sub64_eq (by omega) (by omega), add64_eq (a := (nt - 1) * ns) (by omega), add64_eq (by omega)]
        omega
      rw [copyLoop_ub w s _ (List.replicate w 0) 0 (w - 1) (by omega) hidx]
      rfl

example : [1, 2, 3, 4].length = 2 * 2 ∧ 2 ≤ 3 ∧ ∀ (n : Nat) (w : List Nat), (fun _ w => .ok w : Nat → List Nat → Res (List Nat)) n w ≠ .abort :=
  ⟨rfl, by decide, fun _ _ h => nomatch h⟩

end Verif.Release
