import Verif.Layout.Lemmas
/-!
# C08: SEG-Y layout tiles the file
-/
namespace Verif.Layout

/-- The bytes of trace `i`, header first, as given by the layout functions. -/
def traceBytes (ns i : Nat) : List Nat :=
  List.range' (getDOLoc i ns) getMDSz ++ List.range' (getDODFLoc i ns) (getDFSz ns)

/-- **C08**: file header, then for each trace its header and data, listed byte
by byte, are exactly the bytes `0 .. size-1` in order: no gap, no overlap,
ordered by trace number.  The file size is assumed to fit `size_t`. -/
theorem C08_layout_tiles (nt ns : Nat) (h : 3600 + nt * (240 + 4 * ns) < 2 ^ 64) :
    List.range' 0 getHOSz ++ (List.range nt).flatMap (traceBytes ns)
      = List.range (getFileSz nt ns) := by
  have h' : plainSz nt ns < 2 ^ 64 := h
  rw [getFileSz_eq h']
  suffices hs : ∀ k, k ≤ nt → List.range' 0 getHOSz ++ (List.range k).flatMap (traceBytes ns)
      = List.range' 0 (plainSz k ns) by
    rw [hs nt (Nat.le_refl _), List.range_eq_range']
  intro k
  induction k with
  | zero => intro _; simp [plainSz, getHOSz]
  | succ k ih =>
    intro hk
    rw [List.range_succ, List.flatMap_append, ← List.append_assoc, ih (by omega)]
    simp only [List.flatMap_cons, List.flatMap_nil, List.append_nil]
    have hle := plainSz_mono (ns := ns) (show k ≤ nt by omega)
    unfold traceBytes
    rw [getDODFLoc_eq (show k < nt by omega) h', getDFSz_eq (dosz_lt (nt := nt) (by omega) h')]
    unfold getDOLoc getMDSz
    rw [getFileSz_eq (by omega), plainSz_succ, ← List.append_assoc]
    have e := List.range'_append_1 (s := 0) (m := plainSz k ns) (n := 240)
    rw [Nat.zero_add] at e
    rw [e]
    have e2 := List.range'_append_1 (s := 0) (m := plainSz k ns + 240) (n := 4 * ns)
    rw [Nat.zero_add] at e2
    rw [e2, Nat.add_assoc]

example : 3600 + 1000 * (240 + 4 * 2000) < 2 ^ 64 := by decide

/-- **C08**: distinct regions are disjoint, stated region by region. -/
theorem C08_disjoint (nt ns i j : Nat) (h : 3600 + nt * (240 + 4 * ns) < 2 ^ 64) (hi : i < nt)
    (hj : j < nt) (hij : i < j) :
    getHOSz ≤ getDOLoc i ns ∧ getDOLoc i ns + getMDSz = getDODFLoc i ns ∧
    getDODFLoc i ns + getDFSz ns ≤ getDOLoc j ns ∧
    getDODFLoc j ns + getDFSz ns ≤ getFileSz nt ns := by
  have h' : plainSz nt ns < 2 ^ 64 := h
  rw [getDODFLoc_eq hi h', getDODFLoc_eq hj h', getDFSz_eq (dosz_lt (nt := nt) (by omega) h')]
  have m1 := plainSz_mono (ns := ns) (show i + 1 ≤ j by omega)
  have m2 := plainSz_mono (ns := ns) (show j + 1 ≤ nt by omega)
  have s1 := plainSz_succ i ns
  have s2 := plainSz_succ j ns
  unfold getDOLoc getHOSz getMDSz
  rw [getFileSz_eq (by omega), getFileSz_eq (by omega), getFileSz_eq h']
  have : 3600 ≤ plainSz i ns := by unfold plainSz; omega
  omega

example : 3600 + 3 * (240 + 4 * 2) < 2 ^ 64 ∧ getDOLoc 1 2 = 3848 ∧ getDODFLoc 2 2 = 4336 := by decide

/-- **C08**: a file of that size, or with an incomplete trace appended, is read
as having `nt` traces. -/
theorem C08_count_roundtrip (nt ns r : Nat) (hr : r < 240 + 4 * ns)
    (h : 3600 + nt * (240 + 4 * ns) + r < 2 ^ 64) (hs : 240 + 4 * ns < 2 ^ 64) :
    getNt (getFileSz nt ns + r) ns = .ok nt := by
  rw [getFileSz_eq (show plainSz nt ns < 2 ^ 64 by unfold plainSz; omega)]
  unfold getNt
  rw [getDOSz_eq hs, if_neg (by omega)]
  unfold getHOSz plainSz
  rw [sub64_eq (by omega) (by omega)]
  rw [show 3600 + nt * (240 + 4 * ns) + r - 3600 = r + nt * (240 + 4 * ns) by omega,
    Nat.add_mul_div_right _ _ (by omega), Nat.div_eq_of_lt hr, Nat.zero_add]

example : getNt (getFileSz 1000 2000 + 17) 2000 = .ok 1000 := by decide

end Verif.Layout
