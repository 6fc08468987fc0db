import Verif.Util.MakeRepStd
import Verif.Props.MakeRep

/-!
# C76: moving the borders of the shares; C59 for the standard version
-/

namespace Verif.Util
open Verif.Decomp

/-- The elements from `x` up to `y`. -/
def slice {α : Type} (l : List α) (x y : Nat) : List α := (l.drop x).take (y - x)

section
variable {α : Type}

theorem slice_length {l : List α} {x y : Nat} (h : y ≤ l.length) : (slice l x y).length = y - x := by
  simp only [slice, List.length_take, List.length_drop]; omega

theorem slice_nil {l : List α} {x y : Nat} (h : y ≤ x) : slice l x y = [] := by
  simp only [slice, show y - x = 0 by omega, List.take_zero]

theorem slice_append {l : List α} {x y z : Nat} (h1 : x ≤ y) (h2 : y ≤ z) : slice l x y ++ slice l y z = slice l x z := by
  unfold slice
  rw [show z - x = (y - x) + (z - y) by omega, List.take_add, List.drop_drop, show x + (y - x) = y by omega]

theorem slice_drop {l : List α} {x y n : Nat} : (slice l x y).drop n = slice l (x + n) y := by
  unfold slice
  rw [List.drop_take, List.drop_drop, show y - x - n = y - (x + n) by omega]

theorem slice_take {l : List α} {x y z : Nat} (h : y ≤ z) : (slice l x z).take (y - x) = slice l x y := by
  unfold slice
  rw [List.take_take, Nat.min_eq_left (by omega)]

end

/-- A process whose share goes from `[b, c)` to `[b', c')`. -/
def procOf {α : Type} (data : List α) (b c b' c' : Nat) : Proc α := ⟨⟨b, c - b⟩, ⟨b', c' - b'⟩, slice data b c⟩

section
variable {α : Type}

theorem procOf_sizes (data : List α) {b c b' c' : Nat} (h : b ≤ c) (h' : b' ≤ c') :
    (procOf data b c b' c').lowIn = b - b' ∧ (procOf data b c b' c').lowOut = b' - b ∧
      (procOf data b c b' c').highIn = c' - c ∧ (procOf data b c b' c').highOut = c - c' := by
  unfold procOf Proc.lowIn Proc.lowOut Proc.highIn Proc.highOut
  simp only
  refine ⟨trivial, trivial, ?_, ?_⟩ <;> omega

theorem enlarged_length (z : α) {data : List α} {b c b' c' : Nat} (h : b ≤ c) (h' : b' ≤ c') (hc : c ≤ data.length) :
    ((procOf data b c b' c').enlarged z).length = (b - b') + (c - b) + (c' - c) := by
  obtain ⟨h1, _, h3, _⟩ := procOf_sizes data h h'
  unfold Proc.enlarged
  rw [h1, h3]
  simp only [procOf, List.length_append, List.length_take, List.length_replicate, slice_length hc]
  omega

/-- What goes up is what the process above is to have and does not. -/
theorem toAbove_eq (z : α) {data : List α} {a b a' b' : Nat} (h : a ≤ b) (h' : a' ≤ b') (hb : b ≤ data.length)
    (hn : a ≤ b') : (procOf data a b a' b').toAbove z = slice data b' b := by
  obtain ⟨h1, _, h3, h4⟩ := procOf_sizes data h h'
  have hlen := enlarged_length z h h' hb
  unfold Proc.toAbove
  rw [hlen, h4]
  by_cases hc : b ≤ b'
  · rw [slice_nil hc, List.drop_eq_nil_iff, hlen]; omega
  · unfold Proc.enlarged
    rw [h3, show b' - b = 0 by omega, List.replicate_zero, List.append_nil, h1]
    rw [List.drop_append, List.drop_eq_nil_of_le, List.nil_append]
    · simp only [procOf, List.length_take, List.length_append, List.length_replicate, slice_length hb]
      rw [slice_drop]
      congr 1
      omega
    · simp only [procOf, List.length_take, List.length_append, List.length_replicate, slice_length hb]
      omega

/-- What goes down is what the process below is to have and does not. -/
theorem toBelow_eq (z : α) {data : List α} {c d c' d' : Nat} (h : c ≤ d) (h' : c' ≤ d') (hd : d ≤ data.length)
    (hn : c' ≤ d) : (procOf data c d c' d').toBelow z = slice data c c' := by
  obtain ⟨h1, h2, h3, _⟩ := procOf_sizes data h h'
  unfold Proc.toBelow
  rw [h2]
  by_cases hc : c' ≤ c
  · rw [slice_nil hc, show c' - c = 0 by omega, List.take_zero]
  · unfold Proc.enlarged
    rw [h1, show c - c' = 0 by omega, List.take_zero, List.nil_append, List.take_append_of_le_length]
    · exact slice_take hn
    · simp only [procOf, slice_length hd]; omega

theorem fits_self (n : Nat) : fits n n = true := by unfold fits; by_cases h : n = 0 <;> simp [h]

/-- One process gets its new share. -/
theorem distrib_core (z : α) {data : List α} {b c b' c' : Nat} (below above : Option (Proc α)) (h : b ≤ c) (h' : b' ≤ c')
    (hc : c ≤ data.length) (hc' : c' ≤ data.length) (hb : b' ≤ c) (hcb : b ≤ c')
    (hl : below.elim [] (Proc.toAbove z) = slice data b' b) (hh : above.elim [] (Proc.toBelow z) = slice data c c')
    (f1 : below.elim 0 Proc.highOut = b - b') (f2 : below.elim 0 Proc.highIn = b' - b)
    (f3 : above.elim 0 Proc.lowOut = c' - c) (f4 : above.elim 0 Proc.lowIn = c - c') :
    distrib z below (procOf data b c b' c') above = .ok (slice data b' c') := by
  obtain ⟨h1, h2, h3, h4⟩ := procOf_sizes data h h'
  have hlen := enlarged_length z h h' hc
  unfold distrib
  simp only
  rw [hlen, h1, h2, h3, h4, f1, f2, f3, f4, hl, hh, if_neg (by omega)]
  simp only [fits_self, and_self, if_true]
  have e1 : slice data b' b ++ ((procOf data b c b' c').enlarged z).drop (slice data b' b).length =
      slice data b' b ++ slice data b c ++ List.replicate (c' - c) z := by
    unfold Proc.enlarged
    rw [h1, h3, slice_length (by omega), List.append_assoc, List.drop_append_of_le_length]
    · rw [List.drop_eq_nil_of_le, List.nil_append]
      · simp [procOf]
      · simp only [procOf, List.length_take]; omega
    · simp only [procOf, List.length_take, List.length_append, List.length_replicate]; omega
  rw [e1]
  have l1 : (slice data b' b ++ slice data b c).length = (b - b') + (c - b) := by
    rw [List.length_append, slice_length (by omega), slice_length hc]
  have e2 : (slice data b' b ++ slice data b c ++ List.replicate (c' - c) z).length - (c' - c) =
      (slice data b' b ++ slice data b c).length := by
    rw [List.length_append, List.length_replicate]; omega
  rw [e2, List.take_left]
  rw [List.drop_eq_nil_of_le (show (slice data b' b ++ slice data b c ++ List.replicate (c' - c) z).length ≤
    (slice data b' b ++ slice data b c).length + (slice data c c').length by
      rw [List.length_append, List.length_replicate, slice_length hc']), List.append_nil]
  have e3 : slice data b' b ++ slice data b c ++ slice data c c' = slice data (min b b') (max c c') := by
    have : slice data b' b = slice data (min b b') b := by
      by_cases hx : b ≤ b'
      · rw [slice_nil hx, slice_nil (by omega)]
      · rw [show min b b' = b' by omega]
    rw [this]
    have : slice data c c' = slice data c (max c c') := by
      by_cases hx : c ≤ c'
      · rw [show max c c' = c' by omega]
      · rw [slice_nil (by omega), slice_nil (by omega)]
    rw [this, slice_append (by omega) h, slice_append (by omega) (by omega)]
  rw [e3, slice_drop, show min b b' + (b' - b) = b' by omega]
  have l3 : (slice data b' (max c c')).length = max c c' - b' := slice_length (by omega)
  simp only [procOf]
  rw [List.take_append_of_le_length (by omega), slice_take (by omega)]
  rw [slice_length (show max c c' ≤ data.length by omega), show c' - b' - (max c c' - min b b') = 0 by omega,
    List.replicate_zero, List.append_nil]

/-- The processes from `r` on, given the borders of the old and new shares. -/
def procsFrom (data : List α) (b b' : Nat → Nat) (r n : Nat) : List (Proc α) :=
  (List.range' r n).map fun r => procOf data (b r) (b (r + 1)) (b' r) (b' (r + 1))

theorem distribAll_eq (z : α) (data : List α) (N : Nat) (b b' : Nat → Nat) (h0 : b 0 = 0) (h0' : b' 0 = 0)
    (hT : b N = data.length) (hT' : b' N = data.length) (hm : ∀ r, r < N → b r ≤ b (r + 1))
    (hm' : ∀ r, r < N → b' r ≤ b' (r + 1)) (hle : ∀ r, r ≤ N → b r ≤ data.length) (hle' : ∀ r, r ≤ N → b' r ≤ data.length)
    (near : ∀ r, r + 1 < N → b r ≤ b' (r + 1) ∧ b' (r + 1) ≤ b (r + 2)) :
    ∀ n r, r + n = N →
      distribAll z (if r = 0 then none else some (procOf data (b (r - 1)) (b r) (b' (r - 1)) (b' r)))
        (procsFrom data b b' r n) = .ok ((List.range' r n).map fun r => slice data (b' r) (b' (r + 1))) := by
  intro n
  induction n with
  | zero => intro r _; rfl
  | succ n ih =>
    intro r hr
    have hrN : r < N := by omega
    have ih' := ih (r + 1) (by omega)
    rw [if_neg (by omega), show r + 1 - 1 = r by omega] at ih'
    simp only [procsFrom, List.range'_succ, List.map_cons] at ih' ⊢
    rw [distribAll, ih']
    have hnx : b' r ≤ b (r + 1) := by
      rcases Nat.eq_zero_or_pos r with hz | hp
      · subst hz; rw [h0']; omega
      · have := (near (r - 1) (by omega)).2
        rw [show r - 1 + 1 = r by omega, show r - 1 + 2 = r + 1 by omega] at this
        exact this
    have hny : b r ≤ b' (r + 1) := by
      rcases Nat.eq_or_lt_of_le (show r + 1 ≤ N by omega) with hz | hp
      · rw [hz, hT']; exact hle r (by omega)
      · exact (near r hp).1
    have key : distrib z (if r = 0 then none else some (procOf data (b (r - 1)) (b r) (b' (r - 1)) (b' r)))
        (procOf data (b r) (b (r + 1)) (b' r) (b' (r + 1)))
        (List.map (fun r => procOf data (b r) (b (r + 1)) (b' r) (b' (r + 1))) (List.range' (r + 1) n)).head? =
        .ok (slice data (b' r) (b' (r + 1))) := by
      apply distrib_core z _ _ (hm r hrN) (hm' r hrN) (hle _ (by omega)) (hle' _ (by omega)) hnx hny
      · by_cases hz : r = 0
        · subst hz; simp only [if_true, Option.elim]; rw [slice_nil (by omega)]
        · rw [if_neg hz]
          have := hm (r - 1) (by omega)
          have := hm' (r - 1) (by omega)
          rw [show r - 1 + 1 = r by omega] at *
          exact toAbove_eq z (by assumption) (by assumption) (hle r (by omega)) (by
            have := (near (r - 1) (by omega)).1
            rw [show r - 1 + 1 = r by omega] at this; exact this)
      · cases n with
        | zero =>
          have : r + 1 = N := by omega
          simp only [List.range'_zero, List.map_nil, List.head?_nil, Option.elim]
          rw [this, hT, hT', slice_nil (by omega)]
        | succ n =>
          simp only [List.range'_succ, List.map_cons, List.head?_cons, Option.elim]
          exact toBelow_eq z (hm _ (by omega)) (hm' _ (by omega)) (hle _ (by omega)) (near r (by omega)).2
      · by_cases hz : r = 0
        · subst hz; simp only [if_true, Option.elim]; omega
        · rw [if_neg hz]
          have a1 := hm (r - 1) (by omega)
          have a2 := hm' (r - 1) (by omega)
          rw [show r - 1 + 1 = r by omega] at a1 a2
          exact (procOf_sizes data a1 a2).2.2.2
      · by_cases hz : r = 0
        · subst hz; simp only [if_true, Option.elim]; omega
        · rw [if_neg hz]
          have a1 := hm (r - 1) (by omega)
          have a2 := hm' (r - 1) (by omega)
          rw [show r - 1 + 1 = r by omega] at a1 a2
          exact (procOf_sizes data a1 a2).2.2.1
      · cases n with
        | zero =>
          have : r + 1 = N := by omega
          simp only [List.range'_zero, List.map_nil, List.head?_nil, Option.elim]
          rw [this, hT, hT']; omega
        | succ n =>
          simp only [List.range'_succ, List.map_cons, List.head?_cons, Option.elim]
          exact (procOf_sizes data (hm _ (by omega)) (hm' _ (by omega))).2.1
      · cases n with
        | zero =>
          have : r + 1 = N := by omega
          simp only [List.range'_zero, List.map_nil, List.head?_nil, Option.elim]
          rw [this, hT, hT']; omega
        | succ n =>
          simp only [List.range'_succ, List.map_cons, List.head?_cons, Option.elim]
          exact (procOf_sizes data (hm _ (by omega)) (hm' _ (by omega))).1
    rw [key]
    rfl

theorem borders_le {N : Nat} {b : Nat → Nat} {T : Nat} (hT : b N = T) (hm : ∀ r, r < N → b r ≤ b (r + 1)) :
    ∀ r, r ≤ N → b r ≤ T := by
  intro r hr
  obtain ⟨n, hn⟩ : ∃ n, n = N - r := ⟨_, rfl⟩
  induction n generalizing r with
  | zero => rw [show r = N by omega, hT]
  | succ n ih => exact (hm r (by omega)).trans (ih (r + 1) (by omega) (by omega))

/-- C76: whatever the data, the number of processes and the borders of the old and new shares, if every new border lies
within the two old shares next to the old border, then every process ends with exactly the bytes of its new share, and
nobody waits for a message that is not sent. -/
theorem C76_moves_partial (z : α) (data : List α) (N : Nat) (b b' : Nat → Nat) (h0 : b 0 = 0) (h0' : b' 0 = 0)
    (hT : b N = data.length) (hT' : b' N = data.length) (hm : ∀ r, r < N → b r ≤ b (r + 1))
    (hm' : ∀ r, r < N → b' r ≤ b' (r + 1)) (near : ∀ r, r + 1 < N → b r ≤ b' (r + 1) ∧ b' (r + 1) ≤ b (r + 2)) :
    distribAll z none ((List.range N).map fun r =>
        ⟨⟨b r, b (r + 1) - b r⟩, ⟨b' r, b' (r + 1) - b' r⟩, (data.drop (b r)).take (b (r + 1) - b r)⟩) =
      .ok ((List.range N).map fun r => (data.drop (b' r)).take (b' (r + 1) - b' r)) := by
  have := distribAll_eq z data N b b' h0 h0' hT hT' hm hm' (borders_le hT hm) (borders_le hT' hm') near N 0 (by omega)
  rw [if_pos rfl, procsFrom, ← List.range_eq_range'] at this
  exact this

/-- Three processes with borders moved both ways. -/
example : distribAll 0 none [⟨⟨0, 3⟩, ⟨0, 4⟩, [1, 2, 3]⟩, ⟨⟨3, 3⟩, ⟨4, 1⟩, [4, 5, 6]⟩, ⟨⟨6, 2⟩, ⟨5, 3⟩, [7, 8]⟩] =
    .ok [[1, 2, 3, 4], [5], [6, 7, 8]] := by decide

theorem distribAll_ok (z : α) : ∀ (l : List (Proc α)) (below : Option (Proc α)) (vs : List (List α)),
    distribAll z below l = .ok vs → ∀ p ∈ l, p.lowOut + p.highIn ≤ (p.enlarged z).length ∧
      p.lowIn + p.highOut ≤ (p.enlarged z).length := by
  intro l
  induction l with
  | nil => intro _ _ _ p hp; simp at hp
  | cons q l ih =>
    intro below vs h p hp
    rw [distribAll] at h
    cases hd : distrib z below q l.head? with
    | abort => rw [hd] at h; simp at h
    | ub => rw [hd] at h; simp at h
    | ok v =>
      rw [hd] at h
      simp only [Res.ok_bind] at h
      cases hr : distribAll z (some q) l with
      | abort => rw [hr] at h; simp at h
      | ub => rw [hr] at h; simp at h
      | ok w =>
        rcases List.mem_cons.1 hp with rfl | hp
        · unfold distrib at hd
          simp only at hd
          split at hd
          · simp at hd
          · omega
        · exact ih _ _ hr p hp

/-- C76, the messages: when all processes get through, each message between two neighbours is awaited by the one and sent by
the other, and there is room for it; nothing is sent below the first process or above the last one. -/
theorem C76_messages (z : α) : ∀ (l : List (Proc α)) (below : Option (Proc α)) (vs : List (List α)),
    distribAll z below l = .ok vs →
    (∀ a p q b, l = a ++ p :: q :: b →
      (p.highOut = 0 ↔ q.lowIn = 0) ∧ p.highOut ≤ q.lowIn ∧ (q.lowOut = 0 ↔ p.highIn = 0) ∧ q.lowOut ≤ p.highIn) ∧
    (∀ p b, l = p :: b → below = none → p.lowOut = 0 ∧ p.lowIn = 0) ∧
    (∀ a p, l = a ++ [p] → p.highOut = 0 ∧ p.highIn = 0) := by
  intro l
  induction l with
  | nil => intro _ _ _; simp
  | cons p l ih =>
    intro below vs h
    rw [distribAll] at h
    cases hd : distrib z below p l.head? with
    | abort => rw [hd] at h; simp at h
    | ub => rw [hd] at h; simp at h
    | ok v =>
      rw [hd] at h
      simp only [Res.ok_bind] at h
      cases hr : distribAll z (some p) l with
      | abort => rw [hr] at h; simp at h
      | ub => rw [hr] at h; simp at h
      | ok w =>
        obtain ⟨i1, -, i3⟩ := ih (some p) w hr
        have hf : fits (below.elim 0 Proc.highOut) p.lowIn ∧ fits p.lowOut (below.elim 0 Proc.highIn) ∧
            fits (l.head?.elim 0 Proc.lowOut) p.highIn ∧ fits p.highOut (l.head?.elim 0 Proc.lowIn) := by
          unfold distrib at hd
          simp only at hd
          split at hd
          · simp at hd
          · split at hd
            · assumption
            · simp at hd
        have hfit : ∀ a b, fits a b = true → (a = 0 ↔ b = 0) ∧ a ≤ b := by
          intro a b hab
          simp only [fits, Bool.or_eq_true, Bool.and_eq_true, beq_iff_eq, bne_iff_ne, decide_eq_true_eq] at hab
          omega
        obtain ⟨f1, f2, f3, f4⟩ := hf
        refine ⟨?_, ?_, ?_⟩
        · intro a p' q b e
          cases a with
          | nil =>
            simp only [List.nil_append, List.cons.injEq] at e
            obtain ⟨rfl, rfl⟩ := e
            exact ⟨(hfit _ _ f4).1, (hfit _ _ f4).2, (hfit _ _ f3).1, (hfit _ _ f3).2⟩
          | cons x a =>
            simp only [List.cons_append, List.cons.injEq] at e
            exact i1 a p' q b e.2
        · intro p' b e hb
          simp only [List.cons.injEq] at e
          obtain ⟨rfl, -⟩ := e
          subst hb
          have k1 : (0 = 0 ↔ p.lowIn = 0) ∧ _ := hfit _ _ f1
          have k2 : _ ∧ p.lowOut ≤ 0 := hfit _ _ f2
          exact ⟨by omega, k1.1.mp rfl⟩
        · intro a p' e
          cases a with
          | nil =>
            simp only [List.nil_append, List.cons.injEq] at e
            obtain ⟨rfl, rfl⟩ := e
            have k1 : (0 = 0 ↔ p.highIn = 0) ∧ _ := hfit _ _ f3
            have k2 : _ ∧ p.highOut ≤ 0 := hfit _ _ f4
            exact ⟨by omega, k1.1.mp rfl⟩
          | cons x a =>
            simp only [List.cons_append, List.cons.injEq] at e
            exact i3 a p' e.2

/-- Shares that do not fit together: the second process awaits a byte that the first does not send. -/
example : distribAll 0 none [⟨⟨0, 3⟩, ⟨0, 3⟩, [1, 2, 3]⟩, ⟨⟨3, 3⟩, ⟨2, 4⟩, [4, 5, 6]⟩] = .abort := by decide

/-- C76 holds no further than that: borders that move beyond a neighbour's share are not served (the buffers of the
messages overlap or leave the vector). -/
theorem C76_far_refuted (z : α) (data : List α) (N : Nat) (b b' : Nat → Nat) (hT : b N = data.length)
    (hT' : b' N = data.length) (hm : ∀ r, r < N → b r ≤ b (r + 1)) (hm' : ∀ r, r < N → b' r ≤ b' (r + 1)) (r : Nat)
    (hr : r + 1 < N) (far : b' (r + 1) < b r ∨ b (r + 2) < b' (r + 1)) (vs : List (List α)) :
    distribAll z none ((List.range N).map fun r =>
        ⟨⟨b r, b (r + 1) - b r⟩, ⟨b' r, b' (r + 1) - b' r⟩, (data.drop (b r)).take (b (r + 1) - b r)⟩) ≠ .ok vs := by
  intro h
  have hall := distribAll_ok z _ _ _ h
  have hle := borders_le hT hm
  have hle' := borders_le hT' hm'
  have key : ∀ s, s < N → _ := fun s hs => hall (procOf data (b s) (b (s + 1)) (b' s) (b' (s + 1)))
    (List.mem_map.2 ⟨s, List.mem_range.2 hs, rfl⟩)
  rcases far with h1 | h1
  · have k := key r (by omega)
    obtain ⟨a1, a2, a3, a4⟩ := procOf_sizes data (hm r (by omega)) (hm' r (by omega))
    rw [a1, a2, a3, a4, enlarged_length z (hm r (by omega)) (hm' r (by omega)) (hle _ (by omega))] at k
    have := hm r (by omega)
    have := hm' r (by omega)
    omega
  · have k := key (r + 1) (by omega)
    obtain ⟨a1, a2, a3, a4⟩ := procOf_sizes data (hm (r + 1) (by omega)) (hm' (r + 1) (by omega))
    rw [a1, a2, a3, a4, enlarged_length z (hm (r + 1) (by omega)) (hm' (r + 1) (by omega)) (hle _ (by omega))] at k
    have := hm (r + 1) (by omega)
    have := hm' (r + 1) (by omega)
    rw [show r + 1 + 1 = r + 2 by omega] at *
    omega

example : distribAll 0 none [⟨⟨0, 1⟩, ⟨0, 3⟩, [1]⟩, ⟨⟨1, 1⟩, ⟨3, 0⟩, [2]⟩, ⟨⟨2, 1⟩, ⟨3, 0⟩, [3]⟩] = .ub := by decide

end

/-! ## The standard version -/

theorem off_step (k N r : Nat) (hN : 0 < N) (hr : r ≤ N) : off k N r ≤ off (k + 1) N r ∧ off (k + 1) N r ≤ off k N r + 1 := by
  unfold off
  have h1 := Nat.div_add_mod k N
  have h2 := Nat.mod_lt k hN
  by_cases h : k % N + 1 = N
  · have e : k + 1 = N * (k / N + 1) := by rw [Nat.mul_add, Nat.mul_one]; omega
    have d : (k + 1) / N = k / N + 1 := by rw [e, Nat.mul_div_cancel_left _ hN]
    have m : (k + 1) % N = 0 := by rw [e, Nat.mul_mod_right]
    rw [d, m, Nat.add_mul, Nat.one_mul]
    omega
  · have e : k + 1 = N * (k / N) + (k % N + 1) := by omega
    have d : (k + 1) / N = k / N := by
      rw [e, Nat.mul_add_div hN, Nat.div_eq_of_lt (show k % N + 1 < N by omega), Nat.add_zero]
    have m : (k + 1) % N = k % N + 1 := by
      rw [e, Nat.mul_add_mod, Nat.mod_eq_of_lt (show k % N + 1 < N by omega)]
    rw [d, m]
    omega

theorem off_grows (k N r : Nat) : off k N r + 1 ≤ off k N (r + 1) ∨ off k N r = k := by
  rw [off_succ]
  unfold sz
  by_cases h : r < k % N
  · left; rw [if_pos h]; generalize k / N = q; omega
  · rcases Nat.eq_zero_or_pos (k / N) with h0 | h0
    · right
      have := Nat.div_add_mod k N
      rw [h0, Nat.mul_zero] at this
      unfold off
      rw [h0]
      omega
    · left; omega

/-- The number of blocks that `P` bytes meet, from byte `e` of a block on. -/
def blocks (P bsz e : Nat) : Nat := (P + e) / bsz + 1

theorem blocks_end (P bsz e : Nat) (hb : 0 < bsz) : P ≤ blocks P bsz e * bsz - e := by
  unfold blocks
  have h1 := Nat.div_add_mod (P + e) bsz
  have h2 := Nat.mod_lt (P + e) hb
  rw [Nat.add_mul, Nat.one_mul, Nat.mul_comm]
  omega

theorem blocks_near (P bsz e e' : Nat) (hb : 0 < bsz) (h : e ≤ e') (h' : e' < bsz) :
    blocks P bsz e ≤ blocks P bsz e' ∧ blocks P bsz e' ≤ blocks P bsz e + 1 := by
  unfold blocks
  have h1 : (P + e) / bsz ≤ (P + e') / bsz := Nat.div_le_div_right (by omega)
  have h2 : (P + e') / bsz ≤ (P + e + bsz) / bsz := Nat.div_le_div_right (by omega)
  rw [Nat.add_div_right _ hb] at h2
  omega

theorem off_near (k k' N r : Nat) (hN : 0 < N) (hr : r ≤ N) (h : k ≤ k') (h' : k' ≤ k + 1) :
    off k N r ≤ off k' N r ∧ off k' N r ≤ off k N r + 1 := by
  rcases Nat.eq_or_lt_of_le h with rfl | hl
  · omega
  · rw [show k' = k + 1 by omega]; exact off_step k N r hN hr

/-- A border does not move beyond the next one when the same bytes are laid out from another place in a block. -/
theorem cut_near (P bsz e e' N r : Nat) (hb : 0 < bsz) (he : e < bsz) (he' : e' < bsz) (hN : 0 < N) (hr : r < N) :
    cut (blocks P bsz e') bsz e' P N r ≤ cut (blocks P bsz e) bsz e P N (r + 1) := by
  have hend := blocks_end P bsz e hb
  unfold cut
  rcases off_grows (blocks P bsz e) N r with hg | hg
  · by_cases hee : e ≤ e'
    · obtain ⟨k1, k2⟩ := blocks_near P bsz e e' hb hee he'
      obtain ⟨o1, o2⟩ := off_near _ _ N r hN (by omega) k1 k2
      have := Nat.mul_le_mul_right bsz (show off (blocks P bsz e') N r ≤ off (blocks P bsz e) N (r + 1) by omega)
      omega
    · obtain ⟨k1, k2⟩ := blocks_near P bsz e' e hb (by omega) he
      obtain ⟨o1, o2⟩ := off_near _ _ N r hN (by omega) k1 k2
      have := Nat.mul_le_mul_right bsz (show off (blocks P bsz e') N r + 1 ≤ off (blocks P bsz e) N (r + 1) by omega)
      rw [Nat.add_mul, Nat.one_mul] at this
      omega
  · have h1 := off_mono (blocks P bsz e) N (show r ≤ r + 1 by omega)
    rw [hg] at h1
    have := Nat.mul_le_mul_right bsz h1
    omega

theorem cut_mono (k bsz e P N : Nat) {r s : Nat} (h : r ≤ s) : cut k bsz e P N r ≤ cut k bsz e P N s := by
  unfold cut
  have := Nat.mul_le_mul_right bsz (off_mono k N h)
  omega

theorem cut_zero (k bsz e P N : Nat) : cut k bsz e P N 0 = 0 := by
  unfold cut; rw [off_zero]; omega

theorem cut_last (P bsz e N : Nat) (hb : 0 < bsz) (hN : 0 < N) : cut (blocks P bsz e) bsz e P N N = P := by
  unfold cut
  rw [off_last _ _ hN]
  have := blocks_end P bsz e hb
  omega

/-- The share of a process in blocks, in terms of the borders. -/
theorem blockDecomp_cut (P bsz N r o : Nat) (hb : 0 < bsz) (hN : 0 < N) (hr : r < N) (hq : o / bsz < (o + P) / bsz)
    (h64 : o + P + 2 * bsz < 2 ^ 64) :
    blockDecomp P bsz N r o = .ok ⟨cut (blocks P bsz (o % bsz)) bsz (o % bsz) P N r,
      cut (blocks P bsz (o % bsz)) bsz (o % bsz) P N (r + 1) - cut (blocks P bsz (o % bsz)) bsz (o % bsz) P N r⟩ := by
  obtain ⟨k, hk, h1, h2, h3⟩ := blocks_eq hb hq
  have hkb : blocks P bsz (o % bsz) = k := by
    unfold blocks
    have hmod := Nat.mod_lt (o + P) hb
    rw [h1, Nat.mul_comm, Nat.mul_add_div hb, Nat.div_eq_of_lt hmod]
    omega
  obtain ⟨d, e1, e2, e3, e4⟩ := blockDecomp_eq P bsz N r o hb hN hr h64 k hk h1 h2 h3
  rw [e1, hkb]
  have hend := blocks_end P bsz (o % bsz) hb
  have hmod := Nat.mod_lt o hb
  rw [hkb] at hend
  have hgo : d.globalOffset = cut k bsz (o % bsz) P N r := by
    by_cases hz : d.localSize = 0
    · rw [e4 hz]
      rw [hz] at e2
      unfold cut at e2 ⊢
      rcases off_grows k N r with hg | hg
      · have m1 := Nat.mul_le_mul_right bsz hg
        rw [Nat.add_mul, Nat.one_mul] at m1
        omega
      · rw [hg]; omega
    · exact (e3 hz).1
  rw [← e2, ← hgo]

/-- The borders of the shares when `P` bytes are written from byte `o` of the output on. -/
def border (P N o r : Nat) : Nat := cut (blocks P 2097152 (o % 2097152)) 2097152 (o % 2097152) P N r

theorem decsFrom_eq (P N o : Nat) (hN : 0 < N) (hP : 2097152 ≤ P) (h64 : o + P + 2 * 2097152 < 2 ^ 64) :
    ∀ n r, r + n = N → decsFrom P N o n r =
      .ok ((List.range' r n).map fun r => ⟨border P N o r, border P N o (r + 1) - border P N o r⟩) := by
  intro n
  induction n with
  | zero => intro r _; rfl
  | succ n ih =>
    intro r hr
    rw [decsFrom, blockDecomp_cut P 2097152 N r o (by omega) hN (by omega) (by omega) h64, ih (r + 1) (by omega)]
    rfl

theorem decs_eq (P N o : Nat) (hN : 0 < N) (hP : 2097152 ≤ P) (h64 : o + P + 2 * 2097152 < 2 ^ 64) :
    decsFrom P N o N 0 =
      .ok ((List.range N).map fun r => ⟨border P N o r, border P N o (r + 1) - border P N o r⟩) := by
  rw [decsFrom_eq P N o hN hP h64 N 0 (by omega), List.range_eq_range']

/-- The `P` bytes of the input from byte `s` on. -/
def payload (s P : Nat) : List (Option Nat) := (List.range' s P).map some

/-- What the processes hold when the shares are those for byte `o` of the output. -/
def heldAt (s P N o : Nat) : List Held :=
  (List.range N).map fun r =>
    ⟨⟨border P N o r, border P N o (r + 1) - border P N o r⟩, slice (payload s P) (border P N o r) (border P N o (r + 1))⟩

/-- What they write at byte `o` of the output. -/
def putsAt (s P N o : Nat) : List Put :=
  (List.range N).map fun r => ⟨o + border P N o r, slice (payload s P) (border P N o r) (border P N o (r + 1))⟩

theorem payload_length (s P : Nat) : (payload s P).length = P := by simp [payload]

theorem border_le (P N o r : Nat) : border P N o r ≤ P := by unfold border cut; omega

theorem putAll_eq (s P N o : Nat) (l : List Nat) (hl : ∀ r ∈ l, r < N) :
    putAll o (l.map fun r => ⟨border P N o r, border P N o (r + 1) - border P N o r⟩)
      (l.map fun r => slice (payload s P) (border P N o r) (border P N o (r + 1))) =
    .ok (l.map fun r => ⟨o + border P N o r, slice (payload s P) (border P N o r) (border P N o (r + 1))⟩) := by
  induction l with
  | nil => rfl
  | cons r l ih =>
    have hlen : (slice (payload s P) (border P N o r) (border P N o (r + 1))).length =
        border P N o (r + 1) - border P N o r := slice_length (by rw [payload_length]; exact border_le ..)
    simp only [List.map_cons, putAll]
    rw [hlen, if_neg (by omega), ih (fun r hr => hl r (List.mem_cons_of_mem _ hr))]
    rw [List.take_of_length_le (by omega)]
    rfl

/-- One repetition. -/
theorem writeArb_eq (s P N o o' : Nat) (hN : 0 < N) (hP : 2097152 ≤ P) (h64 : o' + P + 2 * 2097152 < 2 ^ 64) :
    writeArb N o' P (heldAt s P N o) = .ok (heldAt s P N o', putsAt s P N o') := by
  unfold writeArb
  rw [decs_eq P N o' hN hP h64]
  simp only [Res.ok_bind]
  have hvs : (if N ≠ 1 then
      distribAll none none (List.zipWith (fun h d => (⟨h.dec, d, h.buf⟩ : Proc (Option Nat))) (heldAt s P N o)
        ((List.range N).map fun r => (⟨border P N o' r, border P N o' (r + 1) - border P N o' r⟩ : Dec)))
      else .ok ((heldAt s P N o).map Held.buf)) =
      .ok ((List.range N).map fun r => slice (payload s P) (border P N o' r) (border P N o' (r + 1))) := by
    by_cases h1 : N = 1
    · subst h1
      rw [if_neg (by omega)]
      have c0 : ∀ o, border P 1 o 0 = 0 := fun o => cut_zero ..
      have c1 : ∀ o, border P 1 o (0 + 1) = P := fun o => cut_last P _ _ 1 (by omega) (by omega)
      simp only [heldAt, List.range_one, List.map_cons, List.map_nil, c0, c1]
    · rw [if_pos h1, heldAt, List.zipWith_map]
      have : List.zipWith (fun r t => (⟨⟨border P N o r, border P N o (r + 1) - border P N o r⟩,
          ⟨border P N o' t, border P N o' (t + 1) - border P N o' t⟩,
          slice (payload s P) (border P N o r) (border P N o (r + 1))⟩ : Proc (Option Nat))) (List.range N) (List.range N) =
          (List.range N).map fun r => ⟨⟨border P N o r, border P N o (r + 1) - border P N o r⟩,
          ⟨border P N o' r, border P N o' (r + 1) - border P N o' r⟩,
          slice (payload s P) (border P N o r) (border P N o (r + 1))⟩ := by
        rw [List.zipWith_self]
      rw [this]
      have hlt : ∀ o : Nat, o % 2097152 < 2097152 := fun o => Nat.mod_lt _ (by omega)
      exact C76_moves_partial none (payload s P) N (border P N o) (border P N o') (cut_zero ..) (cut_zero ..)
        (by rw [payload_length]; exact cut_last P _ _ N (by omega) hN)
        (by rw [payload_length]; exact cut_last P _ _ N (by omega) hN)
        (fun r _ => cut_mono _ _ _ _ _ (by omega)) (fun r _ => cut_mono _ _ _ _ _ (by omega))
        (fun r hr => ⟨cut_near P 2097152 _ _ N r (by omega) (hlt o') (hlt o) hN (by omega),
          cut_near P 2097152 _ _ N (r + 1) (by omega) (hlt o) (hlt o') hN (by omega)⟩)
  rw [hvs]
  simp only [Res.ok_bind]
  rw [putAll_eq s P N o' _ (fun r hr => List.mem_range.1 hr)]
  simp only [Res.ok_bind, putsAt, heldAt, List.zipWith_map, List.zipWith_self]

/-- All repetitions from `j` on. -/
theorem repeatArb_eq (s fsz N i P : Nat) (hN : 0 < N) (hP : 2097152 ≤ P) :
    ∀ n j o, 3600 + (fsz - 3600) * (j + n) + i + P + 2 * 2097152 < 2 ^ 64 →
      repeatArb N fsz i P n j (heldAt s P N o) =
        .ok ((List.range' j n).flatMap fun j => putsAt s P N (3600 + (fsz - 3600) * j + i)) := by
  intro n
  induction n with
  | zero => intro j o _; rfl
  | succ n ih =>
    intro j o h64
    have hle := Nat.mul_le_mul_left (fsz - 3600) (show j ≤ j + (n + 1) by omega)
    rw [repeatArb, headerSz, writeArb_eq s P N o _ hN hP (by omega)]
    simp only [Res.ok_bind]
    rw [ih (j + 1) _ (by rw [show j + 1 + n = j + (n + 1) by omega]; exact h64)]
    simp [List.range'_succ]

theorem slice_payload {s P x y : Nat} (h : y ≤ P) : slice (payload s P) x y = (List.range' (s + x) (y - x)).map some := by
  unfold slice payload
  rw [← List.map_drop, ← List.map_take, List.drop_range', Nat.mul_one]
  congr 1
  rw [show P - x = (y - x) + (P - x - (y - x)) by omega, ← List.range'_append_1, List.take_left']
  exact List.length_range'

theorem border_header (Q N r : Nat) (hQ : 3600 ≤ Q) : border (Q - 3600) N 3600 r = border Q N 0 r - 3600 := by
  unfold border cut blocks
  rw [show 3600 % 2097152 = 3600 from rfl, show 0 % 2097152 = 0 from rfl, show Q - 3600 + 3600 = Q + 0 by omega]
  omega

theorem border_pos (Q N r : Nat) (hQ : 2097152 ≤ Q) (hr : 1 ≤ r) : 2097152 ≤ border Q N 0 r := by
  unfold border cut
  have h1 : 1 ≤ off (blocks Q 2097152 (0 % 2097152)) N 1 := by
    rcases off_grows (blocks Q 2097152 (0 % 2097152)) N 0 with h | h
    · rw [off_zero] at h; exact h
    · rw [off_zero] at h; unfold blocks at h; omega
  have h2 := off_mono (blocks Q 2097152 (0 % 2097152)) N hr
  have := Nat.mul_le_mul_right 2097152 (show 1 ≤ off (blocks Q 2097152 (0 % 2097152)) N r by omega)
  omega

/-- After the header is taken away the shares are those for byte 3600 of the output. -/
theorem dropHeader_eq (Q N : Nat) (hQ : 2097152 + 3600 ≤ Q) (h64 : Q < 2 ^ 64) (l : List Nat) :
    dropHeader (l.map fun r => ⟨⟨border Q N 0 r, border Q N 0 (r + 1) - border Q N 0 r⟩,
        (List.range' (0 + border Q N 0 r) (border Q N 0 (r + 1) - border Q N 0 r)).map some⟩) =
      .ok (l.map fun r => ⟨⟨border (Q - 3600) N 3600 r, border (Q - 3600) N 3600 (r + 1) - border (Q - 3600) N 3600 r⟩,
        slice (payload 3600 (Q - 3600)) (border (Q - 3600) N 3600 r) (border (Q - 3600) N 3600 (r + 1))⟩) := by
  induction l with
  | nil => rfl
  | cons r l ih =>
    have hb1 := border_pos Q N (r + 1) (by omega) (by omega)
    have hle : border Q N 0 r ≤ border Q N 0 (r + 1) := cut_mono _ _ _ _ _ (by omega)
    have hQ1 := border_le Q N 0 (r + 1)
    rw [List.map_cons, dropHeader, ih]
    simp only [List.map_cons]
    rw [slice_payload (border_le ..), border_header Q N r (by omega), border_header Q N (r + 1) (by omega)]
    by_cases hr : r = 0
    · subst hr
      have h0 : border Q N 0 0 = 0 := cut_zero ..
      rw [if_pos h0, if_neg (by rw [List.length_map, List.length_range', h0, headerSz]; omega)]
      simp only [Res.ok_bind, h0, headerSz]
      rw [← List.map_drop, List.drop_range']
      simp only [Nat.zero_add, Nat.sub_zero, Nat.zero_sub, Nat.add_zero]
    · have hb := border_pos Q N r (by omega) (by omega)
      rw [if_neg (by omega)]
      simp only [Res.ok_bind, headerSz]
      rw [sub64_eq (a := border Q N 0 r) (b := 3600) (by omega) (by omega)]
      rw [show 0 + border Q N 0 r = 3600 + (border Q N 0 r - 3600) by omega,
        show border Q N 0 (r + 1) - 3600 - (border Q N 0 r - 3600) = border Q N 0 (r + 1) - border Q N 0 r by omega]

/-- The writes produce the header and `rep` times the traces, whatever their order. -/
def RepeatsBytes (fsz rep : Nat) (ps : List Put) : Prop :=
  (∀ p ∈ ps, ∀ k b, p.bytes[k]? = some b →
    p.dst + k < 3600 + (fsz - 3600) * rep ∧ b = some (wanted fsz (p.dst + k))) ∧
  ∀ q, q < 3600 + (fsz - 3600) * rep → ∃ p ∈ ps, p.dst ≤ q ∧ q < p.dst + p.bytes.length

/-- The first round, on `Q` bytes. -/
theorem round0_eq (N fsz rep step Q : Nat) (hN : 0 < N) (hr : 1 ≤ rep)
    (hQ : 2097152 + 3600 ≤ Q) (hQf : Q ≤ fsz) (hblk : (if 0 + step < fsz then step else fsz - 0) = Q)
    (h64 : 3600 + (fsz - 3600) * rep + fsz + 2 * 2097152 < 2 ^ 64) :
    standardRound N fsz rep 0 step = .ok (
      ((List.range N).map fun r => ⟨0 + border Q N 0 r,
        (List.range' (0 + border Q N 0 r) (border Q N 0 (r + 1) - border Q N 0 r)).map some⟩) ++
      (List.range' 1 (rep - 1)).flatMap fun j => putsAt 3600 (Q - 3600) N (3600 + (fsz - 3600) * j + 0)) := by
  unfold standardRound
  simp only
  rw [hblk, decs_eq Q N 0 hN (by omega) (by omega)]
  simp only [Res.ok_bind, if_true, List.map_map]
  have hd := dropHeader_eq Q N hQ (by omega) (List.range N)
  have hfun : ((fun d : Dec => (⟨d, (List.range' (0 + d.globalOffset) d.localSize).map some⟩ : Held)) ∘ fun r =>
      (⟨border Q N 0 r, border Q N 0 (r + 1) - border Q N 0 r⟩ : Dec)) = fun r =>
      ⟨⟨border Q N 0 r, border Q N 0 (r + 1) - border Q N 0 r⟩,
        (List.range' (0 + border Q N 0 r) (border Q N 0 (r + 1) - border Q N 0 r)).map some⟩ := rfl
  rw [hfun, hd]
  simp only [Res.ok_bind]
  have := repeatArb_eq 3600 fsz N 0 (Q - 3600) hN (by omega) (rep - 1) 1 3600
    (by rw [show 1 + (rep - 1) = rep by omega]; omega)
  unfold heldAt at this
  rw [show headerSz = 3600 from rfl, this]
  rfl

/-- Every place lies between two borders. -/
theorem border_find (P N o q : Nat) (hN : 0 < N) (hq : q < P) :
    ∃ r, r < N ∧ border P N o r ≤ q ∧ q < border P N o (r + 1) := by
  have h0 : border P N o 0 = 0 := cut_zero ..
  have hl : border P N o N = P := by unfold border; exact cut_last P _ _ N (by decide) hN
  generalize border P N o = B at *
  have key : ∀ n, n ≤ N → q < B n → ∃ r, r < N ∧ B r ≤ q ∧ q < B (r + 1) := by
    intro n
    induction n with
    | zero => intro _ h; omega
    | succ n ih =>
      intro hn h
      by_cases hc : q < B n
      · exact ih (by omega) hc
      · exact ⟨n, by omega, by omega, h⟩
  exact key N (Nat.le_refl N) (by rw [hl]; exact hq)

theorem border_zero (P N o : Nat) : border P N o 0 = 0 := cut_zero ..

theorem border_mono (P N o : Nat) {r s : Nat} (h : r ≤ s) : border P N o r ≤ border P N o s := cut_mono _ _ _ _ _ h

theorem border_one (P N o : Nat) (hP : 0 < P) : 0 < border P N o 1 := by
  unfold border cut
  rcases off_grows (blocks P 2097152 (o % 2097152)) N 0 with hg | hg
  · rw [off_zero] at hg
    have h2 := Nat.mod_lt o (show 0 < 2097152 by decide)
    simp only [Nat.zero_add] at hg
    generalize o % 2097152 = e at *
    generalize off (blocks P 2097152 e) N 1 = f at *
    omega
  · rw [off_zero] at hg; unfold blocks at hg; omega

theorem wanted_at (fsz x : Nat) (h : x < fsz - 3600) : wanted fsz (3600 + (fsz - 3600) * 1 + x) = 3600 + x := by
  have w := wanted_rep (fsz := fsz) (q := x + 3600) (j := 1) (by omega) (by omega)
  rw [Nat.add_sub_cancel] at w
  rw [w]
  omega

theorem wanted_end (fsz : Nat) (h : 3600 < fsz) : wanted fsz fsz = 3600 := by
  unfold wanted
  rw [if_neg (by omega), Nat.mod_self]

attribute [local irreducible] border stepSz wanted

theorem loop_one (N fsz rep step fuel : Nat) (l : List Put) (hf : 0 < fsz) (hs : fsz ≤ step)
    (h : standardRound N fsz rep 0 step = .ok l) : standardLoop N fsz rep step (fuel + 2) 0 = .ok l := by
  rw [standardLoop, if_pos hf, h]
  simp only [Res.ok_bind]
  rw [standardLoop, if_neg (by omega)]
  simp only [Res.ok_bind, List.append_nil]

theorem loop_two (N fsz rep step fuel : Nat) (ps : List Put) (hf : 0 < fsz) (hs : step < fsz)
    (h : standardLoop N fsz rep step (fuel + 2) 0 = .ok ps) :
    ∃ l m, standardRound N fsz rep 0 step = .ok l ∧ standardRound N fsz rep step step = .ok m ∧
      (∀ p ∈ l, p ∈ ps) ∧ ∀ p ∈ m, p ∈ ps := by
  rw [standardLoop, if_pos hf] at h
  cases h1 : standardRound N fsz rep 0 step with
  | ub => rw [h1] at h; simp at h
  | abort => rw [h1] at h; simp at h
  | ok l =>
    rw [h1, Nat.zero_add, standardLoop, if_pos hs] at h
    cases h2 : standardRound N fsz rep step step with
    | ub => rw [h2] at h; simp at h
    | abort => rw [h2] at h; simp at h
    | ok m =>
      rw [h2] at h
      cases h3 : standardLoop N fsz rep step fuel (step + step) with
      | ub => rw [h3] at h; simp at h
      | abort => rw [h3] at h; simp at h
      | ok r =>
        rw [h3] at h
        simp only [Res.ok_bind, Res.ok.injEq] at h
        refine ⟨l, m, rfl, rfl, ?_, ?_⟩
        · intro p hp; rw [← h]; exact List.mem_append_left _ hp
        · intro p hp; rw [← h]; exact List.mem_append_right _ (List.mem_append_left _ hp)

/-- C59, standard version: for every file of at least one block and a header and at most `2^30` bytes for each process, on
any number of processes and for any repetition count, the writes give the header once and the traces repeated. Missing:
larger files and files below a block, see the refutations. -/
theorem C59_standard_partial (fsz rep N : Nat) (hN : 1 ≤ N) (hf : 2097152 + 3600 ≤ fsz) (hstep' : fsz ≤ N * 1073741824)
    (hr : 1 ≤ rep) (h64 : 3600 + (fsz - 3600) * rep + fsz + 2 * 2097152 < 2 ^ 64) :
    ∃ ps, standardCopy N fsz rep = .ok ps ∧ RepeatsBytes fsz rep ps := by
  have hstep : fsz ≤ stepSz N := by unfold stepSz; omega
  have hround := round0_eq N fsz rep (stepSz N) fsz hN hr hf (by omega) (by rw [if_neg (by omega)]; omega) h64
  have hloop : standardCopy N fsz rep = .ok (
      ((List.range N).map fun r => ⟨0 + border fsz N 0 r,
        (List.range' (0 + border fsz N 0 r) (border fsz N 0 (r + 1) - border fsz N 0 r)).map some⟩) ++
      (List.range' 1 (rep - 1)).flatMap fun j => putsAt 3600 (fsz - 3600) N (3600 + (fsz - 3600) * j + 0)) := by
    have := loop_one N fsz rep (stepSz N) (fsz - 2) _ (by omega) hstep hround
    rw [show fsz - 2 + 2 = fsz by omega] at this
    exact this
  refine ⟨_, hloop, ?_, ?_⟩
  · intro p hp k b hb
    rcases List.mem_append.1 hp with hp | hp
    · obtain ⟨r, hrN, rfl⟩ := List.mem_map.1 hp
      simp only at hb ⊢
      rw [List.getElem?_map] at hb
      have hk : k < border fsz N 0 (r + 1) - border fsz N 0 r := by
        by_contra hc
        rw [List.getElem?_eq_none (by simp; omega)] at hb
        simp at hb
      rw [List.getElem?_range' (by omega)] at hb
      simp only [Option.map_some, Option.some.injEq, Nat.one_mul] at hb
      have hle := border_le fsz N 0 (r + 1)
      have hm := Nat.mul_le_mul_left (fsz - 3600) hr
      refine ⟨by omega, ?_⟩
      rw [← hb, wanted_first (by omega)]
    · obtain ⟨j, hj, hp⟩ := List.mem_flatMap.1 hp
      obtain ⟨r, hrN, rfl⟩ := List.mem_map.1 hp
      simp only at hb ⊢
      rw [slice_payload (border_le ..), List.getElem?_map] at hb
      have hjr : j < rep := by have := List.mem_range'_1.1 hj; omega
      generalize hB : border (fsz - 3600) N (3600 + (fsz - 3600) * j + 0) = B at *
      have hle : B (r + 1) ≤ fsz - 3600 := by rw [← hB]; exact border_le ..
      have hk : k < B (r + 1) - B r := by
        by_contra hc
        rw [List.getElem?_eq_none (by simp; omega)] at hb
        simp at hb
      rw [List.getElem?_range' (by omega)] at hb
      simp only [Option.map_some, Option.some.injEq, Nat.one_mul] at hb
      have hm := Nat.mul_le_mul_left (fsz - 3600) (show j + 1 ≤ rep by omega)
      rw [Nat.mul_add, Nat.mul_one] at hm
      refine ⟨by omega, ?_⟩
      rw [← hb]
      have := wanted_rep (fsz := fsz) (q := 3600 + B r + k) (j := j) (by omega) (by omega)
      rw [show 3600 + (fsz - 3600) * j + 0 + B r + k = 3600 + (fsz - 3600) * j + (3600 + B r + k - 3600) by omega, this]
  · intro q hq
    by_cases h1 : q < fsz
    · obtain ⟨r, hrN, c1, c2⟩ := border_find fsz N 0 q hN h1
      refine ⟨_, List.mem_append_left _ (List.mem_map.2 ⟨r, List.mem_range.2 hrN, rfl⟩), ?_, ?_⟩
      · simp only; omega
      · simp only [List.length_map, List.length_range']; omega
    · obtain ⟨x, j, x1, x2, x3, x4⟩ := split_rep (show 3600 < fsz by omega) hq (by omega)
      have hj1 : 1 ≤ j := by
        rcases Nat.eq_zero_or_pos j with hz | hz
        · subst hz; rw [Nat.mul_zero] at x4; omega
        · exact hz
      obtain ⟨r, hrN, c1, c2⟩ := border_find (fsz - 3600) N (3600 + (fsz - 3600) * j + 0) (x - 3600) hN (by omega)
      refine ⟨_, List.mem_append_right _ (List.mem_flatMap.2 ⟨j, List.mem_range'_1.2 (by omega),
        List.mem_map.2 ⟨r, List.mem_range.2 hrN, rfl⟩⟩), ?_, ?_⟩
      · simp only; omega
      · simp only
        rw [slice_length (by rw [payload_length]; exact border_le ..)]
        omega

example : (1 : Nat) ≤ 4 ∧ 2097152 + 3600 ≤ 100000000 ∧ 100000000 ≤ 4 * 1073741824 ∧ 1 ≤ 10 ∧
    3600 + (100000000 - 3600) * 10 + 100000000 + 2 * 2097152 < 2 ^ 64 := by decide

/-- The second round. -/
theorem round2_eq (N fsz rep i step Q : Nat) (hN : 0 < N) (hr : 1 ≤ rep) (hi : i ≠ 0) (hif : i ≤ fsz)
    (hblk : (if i + step < fsz then step else fsz - i) = Q) (hQ : 2097152 ≤ Q) (hQf : Q ≤ fsz)
    (h64 : 3600 + (fsz - 3600) * rep + 2 * fsz + 2 * 2097152 < 2 ^ 64) :
    ∃ l, standardRound N fsz rep i step = .ok (l ++
      (List.range' 1 (rep - 1)).flatMap fun j => putsAt i Q N (3600 + (fsz - 3600) * j + i)) := by
  unfold standardRound
  simp only
  rw [hblk, decs_eq Q N i hN hQ (by omega)]
  simp only [Res.ok_bind, List.map_map]
  rw [if_neg hi]
  have hheld : ((List.range N).map ((fun d : Dec => (⟨d, (List.range' (i + d.globalOffset) d.localSize).map some⟩ : Held))
      ∘ fun r => (⟨border Q N i r, border Q N i (r + 1) - border Q N i r⟩ : Dec))) = heldAt i Q N i := by
    unfold heldAt
    apply List.map_congr_left
    intro r _
    simp only [Function.comp_apply]
    rw [slice_payload (border_le ..)]
  rw [hheld, repeatArb_eq i fsz N i Q hN hQ (rep - 1) 1 i
    (by rw [show 1 + (rep - 1) = rep by omega]; omega)]
  exact ⟨_, rfl⟩

/-- What a repetition starts with has to be what belongs there. -/
theorem start_wanted (fsz rep s Q N o : Nat) (ps : List Put) (hN : 0 < N) (hQ : 0 < Q) (hrep : RepeatsBytes fsz rep ps)
    (hj : ∀ p ∈ putsAt s Q N o, p ∈ ps) : wanted fsz o = s := by
  have hmem : (⟨o + border Q N o 0, slice (payload s Q) (border Q N o 0) (border Q N o (0 + 1))⟩ : Put) ∈ ps :=
    hj _ (List.mem_map.2 ⟨0, List.mem_range.2 hN, rfl⟩)
  have h1 := border_one Q N o hQ
  rw [border_zero, Nat.zero_add, Nat.add_zero] at hmem
  have hb := (hrep.1 _ hmem 0 (some s) (by
    rw [slice_payload (border_le ..), List.getElem?_map, List.getElem?_range' (by omega)]
    simp)).2
  simp only [Option.some.injEq, Nat.add_zero] at hb
  exact hb.symm

/-- C59 fails for the standard version when the file is larger than `2^30` bytes for each process: the second piece of
every repetition is written 3600 bytes too late. -/
theorem C59_standard_pieces_refuted (fsz rep N : Nat) (hN : 1 ≤ N) (hf' : N * 1073741824 + 2097152 ≤ fsz) (hr : 2 ≤ rep)
    (h64 : 3600 + (fsz - 3600) * rep + 2 * fsz + 2 * 2097152 < 2 ^ 64) :
    ¬ ∃ ps, standardCopy N fsz rep = .ok ps ∧ RepeatsBytes fsz rep ps := by
  rintro ⟨ps, hok, hrep, hcov⟩
  have hf : stepSz N + 2097152 ≤ fsz := by unfold stepSz; omega
  have hst : 1073741824 ≤ stepSz N := by unfold stepSz; omega
  unfold standardCopy at hok
  generalize stepSz N = step at *
  obtain ⟨l, m, _, h2, _, hm⟩ := loop_two N fsz rep step (fsz - 2) ps (by omega) (by omega)
    (by rw [show fsz - 2 + 2 = fsz by omega]; exact hok)
  obtain ⟨Q, hQ, hQ1, hQ2⟩ : ∃ Q, (if step + step < fsz then step else fsz - step) = Q ∧ 2097152 ≤ Q ∧ Q ≤ fsz := by
    refine ⟨_, rfl, ?_, ?_⟩ <;> split <;> omega
  obtain ⟨x, hx⟩ := round2_eq N fsz rep step step Q hN (by omega) (by omega) (by omega) hQ hQ1 hQ2 h64
  rw [h2] at hx
  rw [Res.ok.injEq] at hx
  have hj : ∀ p ∈ putsAt step Q N (3600 + (fsz - 3600) * 1 + step), p ∈ ps := by
    intro p hp
    apply hm
    rw [hx]
    apply List.mem_append_right
    exact List.mem_flatMap.2 ⟨1, List.mem_range'_1.2 (by omega), hp⟩
  have h3 := start_wanted fsz rep step Q N _ ps hN (by omega) ⟨hrep, hcov⟩ hj
  have h4 := h3.symm.trans (wanted_at fsz step (by omega))
  omega

example : (1 : Nat) ≤ 2 ∧ 2 * 1073741824 + 2097152 ≤ 3000000000 ∧
    3600 + (3000000000 - 3600) * 2 + 2 * 3000000000 + 2 * 2097152 < 2 ^ 64 := by decide

theorem first_put (N fsz rep step fuel : Nat) (ps : List Put) (d : Dec) (hN : 0 < N) (hf : 0 < fsz)
    (hs : fsz ≤ step) (hd : blockDecomp fsz 2097152 N 0 0 = .ok d)
    (h : standardLoop N fsz rep step (fuel + 1) 0 = .ok ps) :
    (⟨0 + d.globalOffset, (List.range' (0 + d.globalOffset) d.localSize).map some⟩ : Put) ∈ ps := by
  rw [standardLoop, if_pos hf] at h
  unfold standardRound at h
  simp only at h
  rw [if_neg (show ¬ 0 + step < fsz by omega), Nat.sub_zero] at h
  obtain ⟨M, hM⟩ : ∃ M, N = M + 1 := ⟨N - 1, by omega⟩
  have hfirst : ∀ ds, decsFrom fsz N 0 N 0 = .ok ds → ∃ ds', ds = d :: ds' := by
    intro ds hds
    conv at hds => lhs; arg 4; rw [hM]
    rw [decsFrom, hd] at hds
    simp only [Res.ok_bind] at hds
    cases hx : decsFrom fsz N 0 M (0 + 1) with
    | ub => rw [hx] at hds; simp at hds
    | abort => rw [hx] at hds; simp at hds
    | ok l => rw [hx] at hds; simp only [Res.ok_bind, Res.ok.injEq] at hds; exact ⟨l, hds.symm⟩
  cases hds : decsFrom fsz N 0 N 0 with
  | ub => rw [hds] at h; simp at h
  | abort => rw [hds] at h; simp at h
  | ok ds =>
    obtain ⟨ds', rfl⟩ := hfirst ds hds
    rw [hds] at h
    simp only [Res.ok_bind, if_true] at h
    cases hdh : dropHeader (List.map (fun d => (⟨d, (List.range' (0 + d.globalOffset) d.localSize).map some⟩ : Held)) (d :: ds')) with
    | ub => rw [hdh] at h; simp at h
    | abort => rw [hdh] at h; simp at h
    | ok st =>
      rw [hdh] at h
      simp only [Res.ok_bind] at h
      cases hrp : repeatArb N fsz 0 (fsz - headerSz) (rep - 1) 1 st with
      | ub => rw [hrp] at h; simp at h
      | abort => rw [hrp] at h; simp at h
      | ok l =>
        rw [hrp] at h
        simp only [Res.ok_bind] at h
        cases hls : standardLoop N fsz rep step fuel (0 + step) with
        | ub => rw [hls] at h; simp at h
        | abort => rw [hls] at h; simp at h
        | ok m =>
          rw [hls] at h
          simp only [Res.ok_bind, Res.ok.injEq] at h
          rw [← h]
          simp

theorem read_wanted (fsz rep L k : Nat) (ps : List Put) (hrep : RepeatsBytes fsz rep ps)
    (hmem : (⟨0 + 0, (List.range' (0 + 0) L).map some⟩ : Put) ∈ ps) (hk : k < L) : k = wanted fsz k := by
  rw [Nat.add_zero] at hmem
  have hb := (hrep.1 _ hmem k (some k) (by
    rw [List.getElem?_map, List.getElem?_range' hk]
    simp)).2
  simp only [Option.some.injEq, Nat.zero_add] at hb
  exact hb

/-- C59 fails for the standard version for every file of less than a block on several processes: the first process writes
more than the file has. -/
theorem C59_standard_small_refuted (fsz rep N : Nat) (hN : 2 ≤ N) (hN' : N ≤ 2 ^ 43) (hf : 3600 < fsz)
    (hs : fsz < 2097152) : ¬ ∃ ps, standardCopy N fsz rep = .ok ps ∧ RepeatsBytes fsz rep ps := by
  rintro ⟨ps, hok, hrep, hcov⟩
  obtain ⟨d, hd, hgo, hlen⟩ := C52_inside_refuted fsz 0 N 21 (by omega) (by omega) hN hN'
    (by rw [Nat.zero_add, Nat.zero_div]; exact Nat.div_eq_of_lt hs) (by omega)
  rw [show 2 ^ 21 = 2097152 from rfl] at hd
  have hst : 2147483648 ≤ stepSz N := by unfold stepSz; omega
  unfold standardCopy at hok
  have hmem := first_put N fsz rep (stepSz N) (fsz - 1) ps d (by omega) (by omega) (by omega) hd
    (by rw [show fsz - 1 + 1 = fsz by omega]; exact hok)
  rw [hgo] at hmem
  have h3 := read_wanted fsz rep d.localSize fsz ps ⟨hrep, hcov⟩ hmem hlen
  rw [wanted_end fsz hf] at h3
  omega

example : (2 : Nat) ≤ 4 ∧ 4 ≤ 2 ^ 43 ∧ 3600 < 100000 ∧ 100000 < 2097152 ∧ 3600 ≤ 100000 / 4 := by decide

end Verif.Util
