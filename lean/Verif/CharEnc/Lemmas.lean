import Verif.CharEnc.Model
/-!
# Helper lemmas for character conversion
-/
namespace Verif.CharEnc

theorem insertBy_perm (key) (p : Nat × Nat) (l) : (insertBy key p l).Perm (p :: l) := by
  induction l with
  | nil => exact List.Perm.refl _
  | cons q qs ih =>
    unfold insertBy
    split
    · exact List.Perm.refl _
    · exact (List.Perm.cons q ih).trans (List.Perm.swap p q qs)

theorem sortBy_perm (key) (l : List (Nat × Nat)) : (sortBy key l).Perm l := by
  induction l with
  | nil => exact List.Perm.refl _
  | cons p ps ih => exact (insertBy_perm key p _).trans (ih.cons p)

theorem insertBy_sorted (key) (p : Nat × Nat) (l)
    (h : l.Pairwise (fun a b => key a ≤ key b)) :
    (insertBy key p l).Pairwise (fun a b => key a ≤ key b) := by
  induction l with
  | nil => simp [insertBy]
  | cons q qs ih =>
    unfold insertBy
    rw [List.pairwise_cons] at h
    split
    · rename_i hle
      rw [List.pairwise_cons]
      refine ⟨?_, List.pairwise_cons.mpr h⟩
      intro a ha
      rcases List.mem_cons.mp ha with rfl | ha
      · exact hle
      · exact Nat.le_trans hle (h.1 a ha)
    · rename_i hle
      rw [List.pairwise_cons]
      refine ⟨?_, ih h.2⟩
      intro a ha
      rcases List.mem_cons.mp ((insertBy_perm key p qs).mem_iff.mp ha) with rfl | ha
      · omega
      · exact h.1 a ha

theorem sortBy_sorted (key) (l : List (Nat × Nat)) :
    (sortBy key l).Pairwise (fun a b => key a ≤ key b) := by
  induction l with
  | nil => simp [sortBy]
  | cons p ps ih => exact insertBy_sorted key p _ ih

/-- Two sorted rearrangements of a list whose keys are distinct coincide, so the
choice of sorting algorithm does not matter. -/
theorem sort_unique (key : Nat × Nat → Nat) (l a b : List (Nat × Nat))
    (hn : (l.map key).Nodup) (ha : a.Perm l) (hb : b.Perm l)
    (sa : a.Pairwise (fun x y => key x ≤ key y)) (sb : b.Pairwise (fun x y => key x ≤ key y)) :
    a = b := by
  have hab : a.Perm b := ha.trans hb.symm
  have inj : ∀ x ∈ l, ∀ y ∈ l, key x = key y → x = y := by
    intro x hx y hy hxy
    clear ha hb hab
    induction l with
    | nil => simp at hx
    | cons q qs ih =>
      rw [List.map_cons, List.nodup_cons] at hn
      rcases List.mem_cons.mp hx with rfl | hx' <;> rcases List.mem_cons.mp hy with rfl | hy'
      · rfl
      · exact absurd (hxy ▸ List.mem_map_of_mem hy') hn.1
      · exact absurd (hxy ▸ List.mem_map_of_mem hx') hn.1
      · exact ih hn.2 hx' hy'
  refine List.Perm.eq_of_pairwise (le := fun x y => key x ≤ key y) ?_ sa sb hab
  intro x y hx hy h1 h2
  exact inj x (ha.mem_iff.mp hx) y (hb.mem_iff.mp hy) (by omega)

theorem ascii_keys : (table.map Prod.fst).Nodup := by decide +kernel
theorem ebcdic_keys : (table.map Prod.snd).Nodup := by decide +kernel

/-- On a sorted list with distinct keys, `lower_bound` finds a present key. -/
theorem lowerBound_mem (key : Nat × Nat → Nat) (l : List (Nat × Nat))
    (hs : l.Pairwise (fun x y => key x ≤ key y)) (hn : (l.map key).Nodup) (p) (hp : p ∈ l) :
    lowerBound key l (key p) = some p := by
  unfold lowerBound
  induction l with
  | nil => simp at hp
  | cons q qs ih =>
    rw [List.pairwise_cons] at hs
    rw [List.map_cons, List.nodup_cons] at hn
    rcases List.mem_cons.mp hp with rfl | hp'
    · simp
    · have h1 := hs.1 p hp'
      have h2 : key q ≠ key p := fun h => hn.1 (h ▸ List.mem_map_of_mem hp')
      rw [List.find?_cons_of_neg (by simp; omega)]
      exact ih hs.2 hn.2 hp'

theorem toASCII_mem (p : Nat × Nat) (hp : p ∈ table) : toASCII p.2 = p.1 := by
  unfold toASCII ebcdicSorted
  rw [lowerBound_mem Prod.snd _ (sortBy_sorted _ _)
    (((sortBy_perm Prod.snd table).map _).nodup_iff.mpr ebcdic_keys) p
    ((sortBy_perm Prod.snd table).mem_iff.mpr hp)]

theorem toEBCDIC_mem (p : Nat × Nat) (hp : p ∈ table) : toEBCDIC p.1 = p.2 := by
  unfold toEBCDIC asciiSorted
  rw [lowerBound_mem Prod.fst _ (sortBy_sorted _ _)
    (((sortBy_perm Prod.fst table).map _).nodup_iff.mpr ascii_keys) p
    ((sortBy_perm Prod.fst table).mem_iff.mpr hp)]

/-- Printability of every byte, over the whole byte range. -/
theorem ebcdic_printable_table :
    ∀ b ∈ List.range 256, (b < 0x40 → printableEBCDIC b = false) ∧
      (0x40 ≤ b → b ≤ 0x7E → printableEBCDIC b = true) := by
  decide +kernel

theorem absent_table : ∀ b ∈ List.range 256,
    (b ∉ table.map Prod.fst → toEBCDIC b ≠ 0x3F) ∧
    (b ∉ table.map Prod.snd → b ≠ 0x3E → toASCII b ≠ 0x1A) := by
  decide +kernel

theorem toASCII_lt_table : ∀ b ∈ List.range 256, toASCII b < 256 ∧ toEBCDIC b < 256 := by
  decide +kernel

/-- Letters-only bytes are changed by the EBCDIC reading. -/
theorem letters_table : ∀ b ∈ List.range 256, 0x40 ≤ b → b ≤ 0x7E → toASCII b ≠ b := by
  decide +kernel

end Verif.CharEnc
