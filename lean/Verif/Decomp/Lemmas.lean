import Verif.Decomp.Model
/-!
# Arithmetic behind the block decomposition (unbounded numbers)
-/
namespace Verif.Decomp

/-- Offset without wrap-around. -/
def off (range n r : Nat) : Nat := range / n * r + min r (range % n)
/-- Share without wrap-around. -/
def sz (range n r : Nat) : Nat := range / n + if r < range % n then 1 else 0

theorem off_zero (range n : Nat) : off range n 0 = 0 := by simp [off]

theorem off_succ (range n r : Nat) : off range n (r + 1) = off range n r + sz range n r := by
  unfold off sz
  rw [Nat.mul_add]
  split <;> omega

theorem off_last (range n : Nat) (hn : 0 < n) : off range n n = range := by
  unfold off
  have h := Nat.mod_lt range hn
  have h2 := Nat.div_add_mod range n
  rw [Nat.min_eq_right (by omega), Nat.mul_comm]
  exact h2

theorem off_mono (range n : Nat) {r s : Nat} (h : r ≤ s) : off range n r ≤ off range n s := by
  induction h with
  | refl => exact Nat.le_refl _
  | step _ ih => rw [off_succ]; omega

theorem off_le (range n r : Nat) (hn : 0 < n) (hr : r ≤ n) : off range n r ≤ range := by
  have := off_mono range n hr
  rwa [off_last range n hn] at this

theorem sz_le (range n r : Nat) (hn : 0 < n) (hr : r < n) : sz range n r ≤ range := by
  have h1 := off_le range n (r + 1) hn hr
  rw [off_succ] at h1
  omega

theorem blockDecomposition_eq {range n r : Nat} (hn : 0 < n) (hr : r < n)
    (h64 : range < 2 ^ 64) :
    blockDecomposition range n r = .ok ⟨off range n r, sz range n r⟩ := by
  have h1 := off_le range n r hn (by omega)
  have h2 := sz_le range n r hn hr
  unfold blockDecomposition
  simp only [gt_iff_lt, hn, if_true]
  unfold off at h1
  unfold sz at h2
  rw [mul64_eq (by omega), add64_eq (by omega), add64_eq (by omega)]
  rfl

/-- The elements of `[o, o+s)` for consecutive ranks concatenate to `[0, off n)`. -/
theorem flatMap_range (range n : Nat) (m : Nat) :
    (List.range m).flatMap (fun r => List.range' (off range n r) (sz range n r))
      = List.range (off range n m) := by
  induction m with
  | zero => simp [off_zero]
  | succ k ih =>
    rw [List.range_succ, List.flatMap_append, ih, off_succ]
    simp only [List.flatMap_cons, List.flatMap_nil, List.append_nil]
    rw [List.range_eq_range', List.range_eq_range', ← List.range'_append_1]
    simp

/-- The search of `block_decomposition_location` without wrap-around. -/
theorem location_eq {range n i : Nat} (hn : 0 < n) (hi : i < range) (h64 : range < 2 ^ 64) :
    ∃ l : Loc, blockDecompositionLocation range n i = .ok l ∧ l.rank < n ∧
      l.localIndex < sz range n l.rank ∧ off range n l.rank + l.localIndex = i := by
  have hmod := Nat.mod_lt range hn
  have hdm := Nat.div_add_mod range n
  unfold blockDecompositionLocation
  simp only [hi, gt_iff_lt, hn, and_self, if_true]
  generalize hc : range / n = c at *
  generalize hm : range % n = m at *
  have hcn : c * m ≤ c * n := Nat.mul_le_mul_left _ (by omega)
  have hcm : n * c = c * n := Nat.mul_comm _ _
  have hexp : (c + 1) * m = c * m + m := by rw [Nat.add_mul]; simp
  have hcle : c ≤ range := by
    have : c * 1 ≤ c * n := Nat.mul_le_mul_left _ hn
    omega
  have hc1 : c + 1 ≤ 2 ^ 64 := by omega
  by_cases hm0 : c + 1 = 2 ^ 64
  · -- `chunk_size + 1` wraps only if there is one rank and no remainder
    have hcr : c = range := by omega
    have hm00 : m = 0 := by
      have : c * 1 ≤ c * n := Nat.mul_le_mul_left _ hn
      omega
    have hn1 : n = 1 := by
      have : c * n = c := by omega
      have hcpos : 0 < c := by omega
      exact Nat.eq_of_mul_eq_mul_left hcpos (by omega)
    subst hm00 hn1
    have e1 : mul64 (add64 c 1) 0 = 0 := by simp [mul64]
    have e2 : i / c = 0 := Nat.div_eq_of_lt (by omega)
    rw [e1]
    simp only [Nat.not_lt_zero, if_false]
    rw [sub64_eq (by omega) (by omega)]
    rw [if_neg (by omega)]
    refine ⟨_, rfl, ?_⟩
    simp only [Nat.sub_zero, e2]
    have e3 : add64 0 0 = 0 := by simp [add64]
    rw [e3]
    have e4 : mul64 c 0 = 0 := by simp [mul64]
    rw [e4, sub64_eq (a := i) (by omega) (by omega), Nat.sub_zero, sub64_eq (by omega) (by omega)]
    refine ⟨by omega, ?_, ?_⟩
    · unfold sz; rw [hc, hm]; simp; omega
    · rw [off_zero]; simp
  · have hadd : add64 c 1 = c + 1 := add64_eq (by omega)
    rw [hadd]
    have hmul : mul64 (c + 1) m = (c + 1) * m := mul64_eq (by omega)
    rw [hmul]
    split
    · rename_i hlt
      refine ⟨_, rfl, ?_⟩
      have hq := Nat.div_add_mod i (c + 1)
      have hqm : i % (c + 1) < c + 1 := Nat.mod_lt i (Nat.succ_pos c)
      have hqlt : i / (c + 1) < m := by
        rw [Nat.div_lt_iff_lt_mul (Nat.succ_pos c)]
        rw [Nat.mul_comm]; exact hlt
      simp only
      generalize hqe : i / (c + 1) = q at *
      have hqle : (c + 1) * q ≤ i := by rw [← hq]; exact Nat.le_add_right _ _
      have hmul2 : mul64 (c + 1) q = (c + 1) * q := mul64_eq (Nat.lt_of_le_of_lt hqle (by omega))
      rw [hmul2, sub64_eq (by rw [← hq]; exact Nat.le_add_right _ _) (by omega)]
      have hexp2 : (c + 1) * q = c * q + q := by rw [Nat.add_mul]; simp
      refine ⟨by omega, ?_, ?_⟩
      · unfold sz; rw [hc, hm, if_pos hqlt]; omega
      · unfold off; rw [hc, hm, Nat.min_eq_left (by omega)]; omega
    · rename_i hge
      have hcpos : c ≠ 0 := by
        intro h0; subst h0; omega
      rw [if_neg hcpos]
      refine ⟨_, rfl, ?_⟩
      rw [sub64_eq (by omega) (by omega)]
      simp only
      generalize hj : i - (c + 1) * m = j
      have hq := Nat.div_add_mod j c
      have hqm := Nat.mod_lt j (Nat.pos_of_ne_zero hcpos)
      have hcnm : c * (n - m) = c * n - c * m := Nat.mul_sub _ _ _
      have hqlt : j / c < n - m := by
        rw [Nat.div_lt_iff_lt_mul (Nat.pos_of_ne_zero hcpos), Nat.mul_comm]
        omega
      generalize hqe : j / c = q at *
      have hqj : q ≤ c * q := Nat.le_mul_of_pos_left _ (Nat.pos_of_ne_zero hcpos)
      have hadd2 : add64 q m = q + m := add64_eq (by omega)
      rw [hadd2]
      have hexp3 : c * (q + m) = c * q + c * m := Nat.mul_add _ _ _
      have hmul3 : mul64 c (q + m) = c * (q + m) := mul64_eq (by omega)
      rw [hmul3, sub64_eq (a := i) (by omega) (by omega), sub64_eq (by omega) (by omega)]
      refine ⟨by omega, ?_, ?_⟩
      · unfold sz; rw [hc, hm, if_neg (by omega)]; omega
      · unfold off; rw [hc, hm, Nat.min_eq_right (by omega)]; omega

end Verif.Decomp
