import Verif.Flow.Set
import Verif.Decomp.Lemmas
import Mathlib.Data.List.Basic

/-!
Lemmas about sets of files.
-/

namespace Verif.Flow

open Verif.Decomp

theorem iota_eq {n s : Nat} (h : s + n ≤ 2 ^ 64) : iota n s = List.range' s n := by
  unfold iota
  rw [List.range'_eq_map_range]
  apply List.map_congr_left
  intro i hi
  have := List.mem_range.1 hi
  exact add64_eq (by omega)

/-- The running total that `offmap` has for a key. -/
def offOf (k : Key) (gs : List Group) : Nat :=
  match gs.find? (fun g => g.key = k) with
  | some g => g.off
  | none => 0

/-- Groups in strict key order. -/
def Ordered (gs : List Group) : Prop := gs.Pairwise fun a b => keyLt a.key b.key = true

theorem keyLt_irrefl (a : Key) : keyLt a a = false := by simp [keyLt]

theorem keyLt_trans {a b c : Key} (h1 : keyLt a b = true) (h2 : keyLt b c = true) : keyLt a c = true := by
  simp only [keyLt, Bool.or_eq_true, Bool.and_eq_true, decide_eq_true_eq] at *
  omega

theorem keyLt_total {a b : Key} (h : a ≠ b) (h1 : keyLt a b = false) : keyLt b a = true := by
  have : a.1 ≠ b.1 ∨ a.2 ≠ b.2 := by
    by_contra h'
    push Not at h'
    exact h (Prod.ext h'.1 h'.2)
  simp only [keyLt, Bool.or_eq_true, Bool.and_eq_true, decide_eq_true_eq, Bool.or_eq_false_iff,
    Bool.and_eq_false_iff, decide_eq_false_iff_not] at *
  omega

theorem addTo_mem {key : Key} {mk : Nat → Desc} {nt : Nat} {gs : List Group} {g : Group}
    (h : g ∈ addTo key mk nt gs) : g.key = key ∨ ∃ g' ∈ gs, g'.key = g.key := by
  induction gs with
  | nil =>
    rw [addTo, List.mem_singleton] at h
    left; rw [h]
  | cons a gs ih =>
    unfold addTo at h
    split at h
    · rcases List.mem_cons.1 h with h | h
      · left; rw [h]
      · right; exact ⟨g, by simp [h], rfl⟩
    · split at h
      · rcases List.mem_cons.1 h with h | h
        · left; rw [h]
        · right; exact ⟨g, h, rfl⟩
      · rcases List.mem_cons.1 h with h | h
        · right; exact ⟨a, by simp, by rw [h]⟩
        · rcases ih h with h | ⟨g', h1, h2⟩
          · left; exact h
          · right; exact ⟨g', by simp [h1], h2⟩

theorem addTo_ordered {key : Key} {mk : Nat → Desc} {nt : Nat} {gs : List Group} (h : Ordered gs) :
    Ordered (addTo key mk nt gs) := by
  induction gs with
  | nil => simp [addTo, Ordered]
  | cons a gs ih =>
    have h' := List.pairwise_cons.1 h
    unfold addTo
    split
    · next he =>
      refine List.pairwise_cons.2 ⟨?_, h'.2⟩
      intro b hb
      have := h'.1 b hb
      rw [he] at this
      exact this
    · next hne =>
      split
      · next hlt =>
        refine List.pairwise_cons.2 ⟨?_, h⟩
        intro b hb
        rcases List.mem_cons.1 hb with hb | hb
        · rw [hb]; exact hlt
        · exact keyLt_trans hlt (h'.1 b hb)
      · next hnlt =>
        refine List.pairwise_cons.2 ⟨?_, ih h'.2⟩
        intro b hb
        rcases addTo_mem hb with hb | ⟨g', h1, h2⟩
        · rw [hb]
          exact keyLt_total (fun h => hne h.symm) (by simpa using hnlt)
        · rw [← h2]; exact h'.1 g' h1

theorem find_none {k : Key} {gs : List Group} (h : ∀ g ∈ gs, keyLt k g.key = true) :
    gs.find? (fun g => g.key = k) = none := by
  rw [List.find?_eq_none]
  intro g hg
  have := h g hg
  simp only [decide_eq_true_eq]
  intro he
  rw [he, keyLt_irrefl] at this
  exact absurd this (by decide)

theorem descsOf_addTo {key : Key} {mk : Nat → Desc} {nt : Nat} {gs : List Group} (h : Ordered gs) (k : Key) :
    descsOf k (addTo key mk nt gs) = (if k = key then descsOf k gs ++ [mk (offOf key gs)] else descsOf k gs) ∧
    offOf k (addTo key mk nt gs) = (if k = key then add64 (offOf key gs) nt else offOf k gs) := by
  induction gs with
  | nil =>
    by_cases hk : k = key
    · subst hk; simp [addTo, descsOf, offOf]
    · have : ¬ key = k := fun h => hk h.symm
      simp [addTo, descsOf, offOf, hk, this]
  | cons a gs ih =>
    have h' := List.pairwise_cons.1 h
    have ih' := ih h'.2
    unfold addTo
    by_cases he : a.key = key
    · rw [if_pos he]
      by_cases hk : k = key
      · subst hk; simp [descsOf, offOf, he]
      · have h1 : ¬ key = k := fun h => hk h.symm
        simp [descsOf, offOf, he, hk, h1]
    · rw [if_neg he]
      by_cases hlt : keyLt key a.key = true
      · rw [if_pos hlt]
        have hn : (a :: gs).find? (fun g => g.key = key) = none := by
          apply find_none
          intro g hg
          rcases List.mem_cons.1 hg with hg | hg
          · rw [hg]; exact hlt
          · exact keyLt_trans hlt (h'.1 g hg)
        by_cases hk : k = key
        · subst hk
          simp only [descsOf, offOf, hn]
          simp
        · have h1 : ¬ key = k := fun h => hk h.symm
          simp only [descsOf, offOf, hn, hk, if_false]
          rw [List.find?_cons_of_neg (by simpa using h1)]
          simp
      · rw [if_neg hlt]
        by_cases hak : a.key = k
        · have hk : ¬ k = key := fun h => he (by rw [hak, h])
          simp [descsOf, offOf, hak, hk]
        · have e1 : descsOf k (a :: addTo key mk nt gs) = descsOf k (addTo key mk nt gs) := by
            unfold descsOf; rw [List.find?_cons_of_neg (by simpa using hak)]
          have e2 : offOf k (a :: addTo key mk nt gs) = offOf k (addTo key mk nt gs) := by
            unfold offOf; rw [List.find?_cons_of_neg (by simpa using hak)]
          have e3 : descsOf k (a :: gs) = descsOf k gs := by
            unfold descsOf; rw [List.find?_cons_of_neg (by simpa using hak)]
          have e4 : offOf k (a :: gs) = offOf k gs := by
            unfold offOf; rw [List.find?_cons_of_neg (by simpa using hak)]
          have e5 : offOf key (a :: gs) = offOf key gs := by
            unfold offOf; rw [List.find?_cons_of_neg (by simpa using he)]
          rw [e1, e2, e3, e4, e5]
          exact ih'

/-- The descriptors of the files of one group on process `r`. -/
def expected (P r : Nat) : Nat → List FileIn → List Desc
  | _, [] => []
  | o, f :: fs =>
    ⟨f, iota (sz f.nt P r) (off f.nt P r), iota (sz f.nt P r) (add64 o (off f.nt P r))⟩ ::
      expected P r (add64 o f.nt) fs

theorem addAll_spec {P r : Nat} (hP : 0 < P) (hr : r < P) : ∀ (files : List FileIn) (gs : List Group), Ordered gs →
    (∀ f ∈ files, f.nt < 2 ^ 64) →
    ∃ gs', addAll P r gs files = .ok gs' ∧ Ordered gs' ∧
      ∀ k, descsOf k gs' = descsOf k gs ++ expected P r (offOf k gs) (files.filter fun f => f.key = k) := by
  intro files
  induction files with
  | nil => intro gs h _; exact ⟨gs, rfl, h, by simp [expected]⟩
  | cons f fs ih =>
    intro gs h hb
    have hd := blockDecomposition_eq hP hr (hb f (by simp))
    have e : add P r gs f = .ok (addTo f.key
      (fun o => ⟨f, iota (sz f.nt P r) (off f.nt P r), iota (sz f.nt P r) (add64 o (off f.nt P r))⟩) f.nt gs) := by
      unfold add
      rw [hd, Res.ok_bind]
    obtain ⟨gs', h1, h2, h3⟩ := ih _ (addTo_ordered h) (fun g hg => hb g (by simp [hg]))
    refine ⟨gs', ?_, h2, ?_⟩
    · unfold addAll
      rw [e, Res.ok_bind]
      exact h1
    · intro k
      rw [h3 k, (descsOf_addTo h k).1, (descsOf_addTo h k).2]
      by_cases hk : k = f.key
      · subst hk
        simp [expected]
      · have : ¬ f.key = k := fun h => hk h.symm
        simp [hk, this]

end Verif.Flow
