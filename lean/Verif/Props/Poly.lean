import Verif.Signal.Filter
import Mathlib.Algebra.Polynomial.Coeff
import Mathlib.Algebra.Polynomial.Monic

/-!
C44: expansion of a polynomial from its roots.
-/

namespace Verif.Signal

open Polynomial

variable {R K : Type} [CommRing R]

/-- The product of `X - r` over the first `k` roots. -/
noncomputable def rootPoly (coef : List R) (k : Nat) : R[X] := ((coef.take k).map fun r => X - C r).prod

theorem rootPoly_succ (coef : List R) (k : Nat) (h : k < coef.length) :
    rootPoly coef (k + 1) = rootPoly coef k * (X - C coef[k]) := by
  unfold rootPoly
  rw [List.take_succ_eq_append_getElem h, List.map_append, List.prod_append]
  simp

theorem rootPoly_coeff (coef : List R) (k : Nat) (h : k ≤ coef.length) :
    (rootPoly coef k).coeff k = 1 ∧ ∀ j, k < j → (rootPoly coef k).coeff j = 0 := by
  induction k with
  | zero =>
    unfold rootPoly
    simp only [List.take_zero, List.map_nil, List.prod_nil]
    refine ⟨by simp, ?_⟩
    intro j hj
    rw [coeff_one, if_neg (by omega)]
  | succ k ih =>
    obtain ⟨h1, h2⟩ := ih (by omega)
    rw [rootPoly_succ coef k (by omega)]
    constructor
    · rw [coeff_mul_X_sub_C, h1, h2 _ (by omega)]; simp
    · intro j hj
      obtain ⟨j, rfl⟩ : ∃ i, j = i + 1 := ⟨j - 1, by omega⟩
      rw [coeff_mul_X_sub_C, h2 j (by omega), h2 (j + 1) (by omega)]; simp

/-- The inner loop: the coefficients 1 to `i`, highest first. -/
theorem expand_inner (coef : List R) (i : Nat) (hi : i < coef.length) (v : List R) (n : Nat) (hn : v.length = n)
    (hin : i + 1 < n) (p : Nat → R) (hv : ∀ k, k ≤ i + 1 → v[k]? = some (p k)) :
    ∃ v', forRange (expandStep coef i) 0 i v = .ok v' ∧ v'.length = n ∧ v'[0]? = some (p 0) ∧
      v'[i + 1]? = some (p (i + 1)) ∧ ∀ k, k < i → v'[k + 1]? = some (p (k + 1) * -coef[i] + p k) := by
  obtain ⟨v', e, hl, h1, h2⟩ := forRange_inv (expandStep coef i) (fun j w => w.length = n ∧
      (∀ k, (k ≤ i - j ∨ k = i + 1) → w[k]? = some (p k)) ∧
      ∀ k, i - j < k + 1 → k < i → w[k + 1]? = some (p (k + 1) * -coef[i] + p k)) i 0 v
    ⟨hn, fun k hk => hv k (by omega), by intro k _ _; omega⟩ (by
    intro j w _ hj ⟨hwl, ha, hb⟩
    refine ⟨w.set (i - j) (p (i - j) * -coef[i] + p (i - j - 1)), ?_, by simpa using hwl, ?_, ?_⟩
    · unfold expandStep
      rw [readAt_some (ha (i - j) (by omega)), Res.ok_bind, readAt_ok hi, Res.ok_bind,
        readAt_some (ha (i - j - 1) (by omega)), Res.ok_bind, writeAt_ok _ (by omega)]
    · intro k hk
      rw [List.getElem?_set_ne (by omega)]
      exact ha k (by omega)
    · intro k hk1 hk2
      by_cases hkj : k + 1 = i - j
      · rw [← hkj, List.getElem?_set_self (by omega)]
        rfl
      · rw [List.getElem?_set_ne (by omega)]
        exact hb k (by omega) hk2)
  exact ⟨v', e, hl, h1 0 (by omega), h1 (i + 1) (by omega), fun k hk => h2 k (by omega) hk⟩

/-- C44. For every non-empty list of roots over every commutative ring the result is the list of the coefficients,
lowest first, of the product of `X - r` over the roots `r` (the real parts of the coefficients, in the code); the
highest is one. -/
theorem C44_expand (real : R → K) (coef : List R) (hne : coef ≠ []) :
    expandPoly real coef = .ok ((List.range (coef.length + 1)).map fun k =>
      real ((coef.map fun r => X - C r).prod.coeff k)) ∧
    (coef.map fun r => (X - C r : R[X])).prod.coeff coef.length = 1 ∧
    ∀ k, coef.length < k → (coef.map fun r => (X - C r : R[X])).prod.coeff k = 0 := by
  have hpos : 0 < coef.length := List.length_pos_of_ne_nil hne
  have hfull : rootPoly coef coef.length = (coef.map fun r => X - C r).prod := by
    unfold rootPoly; rw [List.take_length]
  refine ⟨?_, ?_⟩
  · rw [← hfull]
    unfold expandPoly
    simp only
    rw [readAt_ok hpos, Res.ok_bind, writeAt_ok _ (by simp), Res.ok_bind, writeAt_ok _ (by simp; omega), Res.ok_bind]
    obtain ⟨v, e, hl, hv⟩ := forRange_inv (fun i v => do
        let v ← writeAt v (i + 1) 1
        let v ← forRange (expandStep coef i) 0 i v
        let a ← readAt v 0
        let c ← readAt coef i
        writeAt v 0 (a * -c)) (fun i v => v.length = coef.length + 1 ∧
          ∀ k, k ≤ i → v[k]? = some ((rootPoly coef i).coeff k)) (coef.length - 1) 1
      (((List.replicate (coef.length + 1) (0 : R)).set 0 (-coef[0])).set 1 1)
      ⟨by simp, by
        intro k hk
        rw [rootPoly_succ coef 0 hpos]
        obtain rfl | rfl : k = 0 ∨ k = 1 := by omega
        · rw [List.getElem?_set_ne (by omega), List.getElem?_set_self (by simp)]
          simp [rootPoly]
        · rw [List.getElem?_set_self (by simp; omega), coeff_mul_X_sub_C]
          simp [rootPoly, coeff_one]⟩ (by
      intro i v hi1 hi2 ⟨hl, hv⟩
      have hi : i < coef.length := by omega
      obtain ⟨w1, e1, l1, z1, t1, m1⟩ := expand_inner coef i hi (v.set (i + 1) 1) (coef.length + 1) (by simpa using hl)
        (by omega) (fun k => if k = i + 1 then 1 else (rootPoly coef i).coeff k) (by
          intro k hk
          by_cases hki : k = i + 1
          · subst hki; rw [List.getElem?_set_self (by omega)]; simp
          · rw [List.getElem?_set_ne (by omega), hv k (by omega)]; simp [hki])
      refine ⟨w1.set 0 ((rootPoly coef i).coeff 0 * -coef[i]), ?_, by simpa using l1, ?_⟩
      · rw [writeAt_ok _ (by omega), Res.ok_bind, e1, Res.ok_bind, readAt_some z1, Res.ok_bind, readAt_ok hi, Res.ok_bind,
          writeAt_ok _ (by omega), if_neg (by omega)]
      · intro k hk
        rw [rootPoly_succ coef i hi]
        cases k with
        | zero =>
          rw [List.getElem?_set_self (by omega)]
          simp [mul_coeff_zero]
        | succ k =>
          rw [List.getElem?_set_ne (by omega), coeff_mul_X_sub_C]
          by_cases hki : k = i
          · subst hki
            rw [t1, (rootPoly_coeff coef k (by omega)).1, (rootPoly_coeff coef k (by omega)).2 _ (by omega)]
            simp
          · rw [m1 k (by omega), if_neg (by omega), if_neg (by omega)]
            congr 1
            rw [mul_neg, neg_add_eq_sub])
    rw [e, Res.ok_bind]
    rw [show 1 + (coef.length - 1) = coef.length by omega] at hv
    have := ext_of_get (V := R) (g := fun k => (rootPoly coef coef.length).coeff k) hl (fun k hk => hv k (by omega))
    rw [this, List.map_map]
    rfl
  · rw [← hfull]
    exact rootPoly_coeff coef coef.length le_rfl

/-- `(X - 2)(X + 3) = X² + X - 6`. -/
example : expandPoly (fun x : Int => x) [2, -3] = .ok [-6, 1, 1] := by decide

/-- An empty list of roots is outside the claim: the function reads the first root. -/
theorem C44_empty (real : R → K) : expandPoly real ([] : List R) = .ub := rfl

end Verif.Signal
