import Verif.Util.Model3D
import Mathlib.Tactic.Ring
import Mathlib.Tactic.Linarith
import Mathlib.Tactic.NormNum

/-!
# C46: reading a 3D model by inline and crossline
-/

namespace Verif.Util

/-- The headers of a regular grid of `nx` crosslines, crosslines fastest. -/
def gridXl (il0 xl0 dil dxl : Int) (nx n : Nat) : Int × Int := (il0 + (n / nx : Nat) * dil, xl0 + (n % nx : Nat) * dxl)

/-- The headers of a regular grid of `ni` inlines, inlines fastest. -/
def gridIl (il0 xl0 dil dxl : Int) (ni n : Nat) : Int × Int := (il0 + (n % ni : Nat) * dil, xl0 + (n / ni : Nat) * dxl)

private theorem toNat_small {x : Int} {n : Nat} (h : x = n) (hn : n < 2 ^ 64) : (x % 2 ^ 64).toNat = n := by
  rw [h]
  omega

/-- C46, one inline (partial): for every number of crosslines one apart, reading by inline and crossline gives the trace
with that header.

The full claim is for every regular grid: the theorems named `C46_..._refuted` below. -/
theorem C46_inline_partial (il0 xl0 dil : Int) (nx k : Nat) (hnx : 2 ≤ nx) (h64 : nx < 2 ^ 63) (hk : k < nx) :
    ∃ c, modelCoords nx (gridXl il0 xl0 dil 1 nx) = .ok c ∧ modelOffset c (gridXl il0 xl0 dil 1 nx k) = k := by
  have hd : ∀ n, n < nx → gridXl il0 xl0 dil 1 nx n = (il0, xl0 + n) := by
    intro n hn
    unfold gridXl
    rw [Nat.div_eq_of_lt hn, Nat.mod_eq_of_lt hn]
    simp
  have hq : ((nx - 1 : Nat) : Int).tdiv nx = 0 := by
    rw [Int.tdiv_eq_ediv_of_nonneg (by omega)]
    exact Int.ediv_eq_zero_of_lt (by omega) (by omega)
  refine ⟨(⟨il0, 0, 1⟩, ⟨xl0, nx, 1⟩), ?_, ?_⟩
  · unfold modelCoords
    rw [if_neg (by omega), hd 0 (by omega), hd 1 (by omega), hd (nx - 1) (by omega)]
    simp only [sub_self, ne_eq, not_true_eq_false, ↓reduceIte, Nat.div_one, Nat.cast_zero, add_zero, add_sub_cancel_left, hq]
    rw [if_neg (by omega)]
  · rw [hd k hk]
    unfold modelOffset
    apply toNat_small _ (by omega)
    simp only [sub_self, zero_mul, zero_add, add_sub_cancel_left, Int.tdiv_one]

example : modelCoords 4 (gridXl 10 20 1 1 4) = .ok (⟨10, 0, 1⟩, ⟨20, 4, 1⟩) ∧
    modelOffset (⟨10, 0, 1⟩, ⟨20, 4, 1⟩) (10, 23) = 3 := by decide

/-- C46, one crossline (partial): for every number of inlines from three on, whatever their distance. -/
theorem C46_crossline_partial (il0 xl0 dil dxl : Int) (ni k : Nat) (hni : 3 ≤ ni) (h64 : ni < 2 ^ 63) (hk : k < ni)
    (hd : dil ≠ 0) :
    ∃ c, modelCoords ni (gridIl il0 xl0 dil dxl ni) = .ok c ∧ modelOffset c (gridIl il0 xl0 dil dxl ni k) = k := by
  have hg : ∀ n, n < ni → gridIl il0 xl0 dil dxl ni n = (il0 + n * dil, xl0) := by
    intro n hn
    unfold gridIl
    rw [Nat.div_eq_of_lt hn, Nat.mod_eq_of_lt hn]
    simp
  have hc : (((ni - 1 : Nat) : Int) % 2 ^ 64).toNat = ni - 1 := toNat_small rfl (by omega)
  have hone : ni / (ni - 1) = 1 := by
    apply Nat.div_eq_of_lt_le <;> omega
  refine ⟨(⟨il0, (ni - 1 : Nat), dil⟩, ⟨xl0, 1, 1⟩), ?_, ?_⟩
  · unfold modelCoords
    rw [if_neg (by omega), hg 0 (by omega), hg 1 (by omega), hg (ni - 1) (by omega)]
    simp only [Nat.cast_zero, zero_mul, add_zero, Nat.cast_one, one_mul, add_sub_cancel_left, sub_self]
    rw [if_pos hd, if_pos hd, Int.mul_tdiv_cancel _ hd, if_pos (show ((ni - 1 : Nat) : Int) ≠ 0 by omega), hc, hone]
    simp
  · rw [hg k hk]
    unfold modelOffset
    apply toNat_small _ (by omega)
    simp only [add_sub_cancel_left, sub_self, Int.zero_tdiv, add_zero, mul_one]
    exact Int.mul_tdiv_cancel _ hd

example : modelCoords 4 (gridIl 10 20 (-3) 7 4) = .ok (⟨10, 3, -3⟩, ⟨20, 1, 1⟩) ∧
    modelOffset (⟨10, 3, -3⟩, ⟨20, 1, 1⟩) (4, 20) = 2 := by decide

/-- C46 fails for every grid of two or more inlines and crosslines with the crosslines fastest, whatever the distances:
the second inline's first trace is number `nx`, and another is read, from outside the file. -/
theorem C46_xl_refuted (il0 xl0 dil dxl : Int) (ni nx : Nat) (hni : 2 ≤ ni) (hnx : 2 ≤ nx) (hd : dil ≠ 0)
    (h64 : dil.natAbs * (ni * nx) + ni * nx < 2 ^ 63) :
    ∃ c, modelCoords (ni * nx) (gridXl il0 xl0 dil dxl nx) = .ok c ∧ gridXl il0 xl0 dil dxl nx nx = (il0 + dil, xl0) ∧
      ni * nx ≤ modelOffset c (il0 + dil, xl0) := by
  have hnt : 4 ≤ ni * nx := Nat.mul_le_mul hni hnx
  have h0 : gridXl il0 xl0 dil dxl nx 0 = (il0, xl0) := by unfold gridXl; simp
  have h1 : gridXl il0 xl0 dil dxl nx 1 = (il0, xl0 + dxl) := by
    unfold gridXl
    rw [Nat.div_eq_of_lt (by omega), Nat.mod_eq_of_lt (by omega)]
    simp
  have h2 : gridXl il0 xl0 dil dxl nx nx = (il0 + dil, xl0) := by
    unfold gridXl
    rw [Nat.div_self (by omega), Nat.mod_self]
    simp
  obtain ⟨x, hx⟩ : ∃ x, modelCoords (ni * nx) (gridXl il0 xl0 dil dxl nx) = .ok (⟨il0, 0, 1⟩, ⟨xl0, (ni * nx : Nat), x⟩) := by
    unfold modelCoords
    rw [if_neg (by omega), h0, h1]
    simp only [sub_self, ne_eq, not_true_eq_false, ↓reduceIte, Nat.div_one]
    rw [if_neg (by omega)]
    exact ⟨_, rfl⟩
  refine ⟨_, hx, h2, ?_⟩
  unfold modelOffset
  simp only [add_sub_cancel_left, sub_self, Int.zero_tdiv, add_zero, Int.tdiv_one]
  generalize hN : ni * nx = nt at *
  rcases Int.natAbs_eq dil with h | h
  · generalize dil.natAbs = a at *
    rw [h]
    have : 1 * nt ≤ a * nt := Nat.mul_le_mul_right _ (by omega)
    rw [toNat_small (n := a * nt) (by push_cast; rfl) (by omega)]
    omega
  · generalize dil.natAbs = a at *
    have ha : 1 ≤ a := by omega
    have : 1 * nt ≤ a * nt := Nat.mul_le_mul_right _ ha
    have he : dil * (nt : Int) = -((a * nt : Nat) : Int) := by rw [h]; push_cast; ring
    rw [he]
    generalize a * nt = m at *
    omega

example : modelCoords 4 (gridXl 0 0 1 1 2) = .ok (⟨0, 0, 1⟩, ⟨0, 4, 1⟩) ∧ modelOffset (⟨0, 0, 1⟩, ⟨0, 4, 1⟩) (1, 0) = 4 := by
  decide

/-- C46 fails for every grid of two or more inlines and crosslines with the inlines fastest, whatever the distances: the
second trace is read as another. -/
theorem C46_il_refuted (il0 xl0 dil dxl : Int) (ni nx : Nat) (hni : 2 ≤ ni) (hnx : 2 ≤ nx) (hd : dil ≠ 0)
    (h64 : ni * nx < 2 ^ 63) :
    ∃ c, modelCoords (ni * nx) (gridIl il0 xl0 dil dxl ni) = .ok c ∧ gridIl il0 xl0 dil dxl ni 1 = (il0 + dil, xl0) ∧
      nx ≤ modelOffset c (il0 + dil, xl0) := by
  have hnt : 4 ≤ ni * nx := Nat.mul_le_mul hni hnx
  have h0 : gridIl il0 xl0 dil dxl ni 0 = (il0, xl0) := by unfold gridIl; simp
  have h1 : gridIl il0 xl0 dil dxl ni 1 = (il0 + dil, xl0) := by
    unfold gridIl
    rw [Nat.div_eq_of_lt (by omega), Nat.mod_eq_of_lt (by omega)]
    simp
  have h2 : (gridIl il0 xl0 dil dxl ni (ni * nx - 1)).1 = il0 + ((ni - 1 : Nat) : Int) * dil := by
    unfold gridIl
    simp only
    congr 3
    have : ni * nx - 1 = (ni - 1) + ni * (nx - 1) := by
      obtain ⟨m, rfl⟩ : ∃ m, nx = m + 1 := ⟨nx - 1, by omega⟩
      rw [Nat.add_sub_cancel, Nat.mul_add]
      omega
    rw [this, Nat.add_mul_mod_self_left, Nat.mod_eq_of_lt (by omega)]
  have hc : (((ni - 1 : Nat) : Int) % 2 ^ 64).toNat = ni - 1 := by
    have : ni * 1 ≤ ni * nx := Nat.mul_le_mul_left _ (by omega)
    exact toNat_small rfl (by omega)
  have hcount : nx ≤ ni * nx / (ni - 1) := by
    rw [Nat.le_div_iff_mul_le (by omega), Nat.mul_comm]
    exact Nat.mul_le_mul_right _ (by omega)
  have hcount2 : ni * nx / (ni - 1) ≤ ni * nx := Nat.div_le_self _ _
  obtain ⟨x, hx⟩ : ∃ x, modelCoords (ni * nx) (gridIl il0 xl0 dil dxl ni) =
      .ok (⟨il0, (ni - 1 : Nat), dil⟩, ⟨xl0, (ni * nx / (ni - 1) : Nat), x⟩) := by
    unfold modelCoords
    rw [if_neg (by omega), h0, h1, h2]
    simp only [add_sub_cancel_left]
    rw [if_pos hd, if_pos hd, Int.mul_tdiv_cancel _ hd, if_pos (show ((ni - 1 : Nat) : Int) ≠ 0 by omega), hc, if_neg (by omega)]
    exact ⟨_, rfl⟩
  refine ⟨_, hx, h1, ?_⟩
  unfold modelOffset
  simp only [add_sub_cancel_left, sub_self, Int.zero_tdiv, add_zero]
  rw [Int.tdiv_self hd, one_mul, toNat_small rfl (by omega)]
  exact hcount

example : modelCoords 4 (gridIl 0 0 1 1 2) = .ok (⟨0, 1, 1⟩, ⟨0, 4, 1⟩) ∧ modelOffset (⟨0, 1, 1⟩, ⟨0, 4, 1⟩) (1, 0) = 4 := by
  decide

/-- C46 fails for one inline of crosslines two or more apart, whatever their number: the last is read from outside the
file. -/
theorem C46_spacing_refuted (il0 xl0 dil : Int) (nx dxl : Nat) (hnx : 2 ≤ nx) (hd : 2 ≤ dxl) (h64 : nx * dxl < 2 ^ 63) :
    ∃ c, modelCoords nx (gridXl il0 xl0 dil dxl nx) = .ok c ∧ nx ≤ modelOffset c (gridXl il0 xl0 dil dxl nx (nx - 1)) := by
  have hg : ∀ n, n < nx → gridXl il0 xl0 dil dxl nx n = (il0, xl0 + n * dxl) := by
    intro n hn
    unfold gridXl
    rw [Nat.div_eq_of_lt hn, Nat.mod_eq_of_lt hn]
    simp
  have hnn : nx ≤ (nx - 1) * dxl := by
    have : (nx - 1) * 2 ≤ (nx - 1) * dxl := Nat.mul_le_mul_left _ hd
    omega
  have hle : (nx - 1) * dxl ≤ nx * dxl := Nat.mul_le_mul_right _ (by omega)
  have hq : (((nx - 1 : Nat) : Int) * (dxl : Int)).tdiv nx = (((nx - 1) * dxl / nx : Nat) : Int) := by
    rw [Int.tdiv_eq_ediv_of_nonneg (by positivity)]
    push_cast
    rfl
  have hpos : 1 ≤ (nx - 1) * dxl / nx := by rw [Nat.one_le_div_iff (by omega)]; exact hnn
  refine ⟨(⟨il0, 0, 1⟩, ⟨xl0, nx, ((nx - 1) * dxl / nx : Nat)⟩), ?_, ?_⟩
  · unfold modelCoords
    rw [if_neg (by omega), hg 0 (by omega), hg 1 (by omega), hg (nx - 1) (by omega)]
    simp only [sub_self, ne_eq, not_true_eq_false, ↓reduceIte, Nat.div_one, Nat.cast_zero, zero_mul, add_zero,
      add_sub_cancel_left, hq]
    rw [if_neg (by omega), if_pos (by omega)]
  · rw [hg (nx - 1) (by omega)]
    unfold modelOffset
    simp only [sub_self, Int.zero_tdiv, zero_mul, zero_add, add_sub_cancel_left]
    rw [toNat_small (n := (nx - 1) * dxl / ((nx - 1) * dxl / nx)) ?_ ?_]
    · rw [Nat.le_div_iff_mul_le (by omega)]
      rw [Nat.mul_comm]
      exact Nat.div_mul_le_self _ _
    · rw [Int.tdiv_eq_ediv_of_nonneg (by positivity)]
      push_cast
      rfl
    · exact lt_of_le_of_lt (Nat.div_le_self _ _) (by omega)

example : modelCoords 3 (gridXl 0 0 1 2 3) = .ok (⟨0, 0, 1⟩, ⟨0, 3, 1⟩) ∧ modelOffset (⟨0, 0, 1⟩, ⟨0, 3, 1⟩) (0, 4) = 4 := by
  decide

/-- C46: opening a file whose inlines are not one regular axis can be undefined behaviour: if the last inline is further from the
first than as many steps as there are traces, the number of crosslines is 0 and divided by. -/
theorem C46_open_refuted (nt : Nat) (hdr : Nat → Int × Int) (h2 : 2 ≤ nt) (hd : 0 < (hdr 1).1 - (hdr 0).1)
    (hfar : (nt + 1) * ((hdr 1).1 - (hdr 0).1) ≤ (hdr (nt - 1)).1 - (hdr 0).1)
    (h64 : (hdr (nt - 1)).1 - (hdr 0).1 < 2 ^ 63) : modelCoords nt hdr = .ub := by
  unfold modelCoords
  rw [if_neg (by omega)]
  simp only
  generalize (hdr 1).1 - (hdr 0).1 = d at *
  generalize (hdr (nt - 1)).1 - (hdr 0).1 = D at *
  have hD0 : 0 ≤ D := le_trans (by positivity) hfar
  have hq : (nt : Int) + 1 ≤ D.tdiv d := by
    rw [Int.tdiv_eq_ediv_of_nonneg hD0]
    exact Int.le_ediv_of_mul_le hd hfar
  have hq1 : D.tdiv d ≤ D := Int.tdiv_le_self d hD0
  have hne : D.tdiv d ≠ 0 := by omega
  have h3 : nt / (D.tdiv d % 2 ^ 64).toNat = 0 := Nat.div_eq_of_lt (by omega)
  simp only [ne_eq, (show d ≠ 0 by omega), not_false_eq_true, ↓reduceIte, hne, h3, Nat.cast_zero]

example : modelCoords 3 (fun t => if t = 0 then (1, 1) else if t = 1 then (2, 1) else (10, 1)) = .ub := by decide

end Verif.Util
