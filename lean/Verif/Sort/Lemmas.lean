import Verif.Sort.Model
import Mathlib.Data.List.Sort
import Mathlib.Algebra.BigOperators.Group.List.Basic

/-!
Lemmas about the parallel sort: inversions, the windows that one round sorts, the end of the loop.
-/

namespace Verif.Sort

variable {α β : Type}

/-- `srt` sorts by `lt`: the result is a rearrangement in which no element is less than an earlier one. -/
def IsSort (lt : α → α → Bool) (srt : List α → List α) : Prop :=
  ∀ l, (srt l).Perm l ∧ (srt l).Pairwise fun a b => lt b a = false

/-- `lt` is a strict total order on the elements of `l`. -/
structure TotalOn (lt : α → α → Bool) (l : List α) : Prop where
  irrefl : ∀ a ∈ l, lt a a = false
  trans : ∀ a ∈ l, ∀ b ∈ l, ∀ c ∈ l, lt a b = true → lt b c = true → lt a c = true
  total : ∀ a ∈ l, ∀ b ∈ l, a ≠ b → lt a b = true ∨ lt b a = true

theorem TotalOn.mono {lt : α → α → Bool} {l l' : List α} (h : TotalOn lt l) (hs : ∀ x ∈ l', x ∈ l) :
    TotalOn lt l' :=
  ⟨fun a ha => h.irrefl a (hs a ha), fun a ha b hb c hc => h.trans a (hs a ha) b (hs b hb) c (hs c hc),
   fun a ha b hb => h.total a (hs a ha) b (hs b hb)⟩

theorem TotalOn.antisymm {lt : α → α → Bool} {l : List α} (h : TotalOn lt l) {a b : α} (ha : a ∈ l) (hb : b ∈ l)
    (h1 : lt b a = false) (h2 : lt a b = false) : a = b := by
  by_contra hne
  rcases h.total a ha b hb hne with h' | h'
  · simp [h'] at h2
  · simp [h'] at h1

theorem TotalOn.le_trans {lt : α → α → Bool} {l : List α} (h : TotalOn lt l) {a b d : α} (ha : a ∈ l) (hb : b ∈ l)
    (hd : d ∈ l) (h1 : lt b a = false) (h2 : lt d b = false) : lt d a = false := by
  by_contra hne
  rw [Bool.not_eq_false] at hne
  by_cases hab : a = b
  · subst hab; simp [hne] at h2
  · rcases h.total a ha b hb hab with h' | h'
    · have := h.trans d hd a ha b hb hne h'
      simp [this] at h2
    · simp [h'] at h1

/-- A list that is already sorted is left as it is. -/
theorem srt_id {lt : α → α → Bool} {srt : List α → List α} (hs : IsSort lt srt) {l : List α} (ht : TotalOn lt l)
    (h : l.Pairwise fun a b => lt b a = false) : srt l = l := by
  refine List.Perm.eq_of_pairwise ?_ (hs l).2 h (hs l).1
  intro a b ha hb h1 h2
  exact ht.antisymm ((hs l).1.mem_iff.1 ha) hb h1 h2

/-! Inversions. -/

/-- The number of pairs in the wrong order. -/
def inv (lt : α → α → Bool) : List α → Nat
  | [] => 0
  | a :: l => l.countP (fun b => lt b a) + inv lt l

/-- The number of pairs in the wrong order with one element in each list. -/
def cross (lt : α → α → Bool) (a b : List α) : Nat := (a.map fun x => b.countP fun y => lt y x).sum

theorem inv_append (lt : α → α → Bool) (a b : List α) : inv lt (a ++ b) = inv lt a + inv lt b + cross lt a b := by
  induction a with
  | nil => simp [inv, cross]
  | cons x a ih =>
    simp only [List.cons_append, inv, ih, List.countP_append, cross, List.map_cons, List.sum_cons]
    omega

theorem cross_perm (lt : α → α → Bool) {a a' b b' : List α} (ha : a.Perm a') (hb : b.Perm b') :
    cross lt a b = cross lt a' b' := by
  unfold cross
  have : (fun x => b.countP fun y => lt y x) = (fun x => b'.countP fun y => lt y x) := by
    funext x
    exact hb.countP_eq _
  rw [this]
  exact (ha.map _).sum_eq

theorem inv_zero {lt : α → α → Bool} {l : List α} : inv lt l = 0 ↔ l.Pairwise fun a b => lt b a = false := by
  induction l with
  | nil => simp [inv]
  | cons a l ih => simp [inv, ih, List.countP_eq_zero]

theorem flatten_perm {srt : List α → List α} (hs : ∀ l, (srt l).Perm l) (ws : List (List α)) :
    (ws.map srt).flatten.Perm ws.flatten := by
  induction ws with
  | nil => simp
  | cons w ws ih => exact (hs w).append ih

theorem inv_sorted {lt : α → α → Bool} {srt : List α → List α} (hs : IsSort lt srt) (ws : List (List α)) :
    inv lt (ws.map srt).flatten + (ws.map (inv lt)).sum = inv lt ws.flatten := by
  induction ws with
  | nil => simp
  | cons w ws ih =>
    have h0 : inv lt (srt w) = 0 := inv_zero.2 (hs w).2
    have hc := cross_perm lt (hs w).1 (flatten_perm (fun l => (hs l).1) ws)
    simp only [List.map_cons, List.flatten_cons, inv_append, List.sum_cons]
    omega

/-! Concatenation over the processes. -/

/-- The concatenation of `f 0 … f (n-1)`. -/
def flat (n : Nat) (f : Nat → List α) : List α := ((List.range n).map f).flatten

theorem flat_succ (n : Nat) (f : Nat → List α) : flat (n + 1) f = flat n f ++ f n := by
  simp [flat, List.range_succ]

theorem flat_congr {n : Nat} {f g : Nat → List α} (h : ∀ r, r < n → f r = g r) : flat n f = flat n g := by
  unfold flat
  rw [List.map_congr_left (fun r hr => h r (List.mem_range.1 hr))]

theorem mem_flat {n : Nat} {f : Nat → List α} {x : α} : x ∈ flat n f ↔ ∃ r, r < n ∧ x ∈ f r := by
  simp [flat]

/-- Two ways to cut one list. -/
theorem rebracket (h k : Nat → List α) (n : Nat) :
    flat n (fun r => h r ++ k r) ++ h n = h 0 ++ flat n (fun r => k r ++ h (r + 1)) := by
  induction n with
  | zero => simp [flat]
  | succ n ih =>
    rw [flat_succ, flat_succ, ← List.append_assoc (h 0), ← ih]
    simp

theorem flat_srt_perm {lt : α → α → Bool} {srt : List α → List α} (hs : IsSort lt srt) (n : Nat) (w : Nat → List α) :
    (flat n fun r => srt (w r)).Perm (flat n w) := by
  have := flatten_perm (fun l => (hs l).1) ((List.range n).map w)
  simpa [flat, List.map_map, Function.comp_def] using this

theorem flat_srt_inv {lt : α → α → Bool} {srt : List α → List α} (hs : IsSort lt srt) (n : Nat) (w : Nat → List α) :
    inv lt (flat n fun r => srt (w r)) + ((List.range n).map fun r => inv lt (w r)).sum = inv lt (flat n w) := by
  have := inv_sorted hs ((List.range n).map w)
  simpa [flat, List.map_map, Function.comp_def] using this

theorem sum_zero {n : Nat} {f : Nat → Nat} (h : ((List.range n).map f).sum = 0) : ∀ r, r < n → f r = 0 := by
  induction n with
  | zero => intro r hr; omega
  | succ n ih =>
    rw [List.range_succ, List.map_append, List.sum_append] at h
    simp only [List.map_cons, List.map_nil, List.sum_cons, List.sum_nil] at h
    intro r hr
    by_cases h1 : r = n
    · subst h1; omega
    · exact ih (by omega) r (by omega)

/-! One round on the shares of the processes (the buffers without their tails). -/

section Round

variable (c : Cfg α β) (P R : Nat) (lnt : Nat → Nat)

/-- The part of a share that the process before gets to see. -/
def head (b : Nat → List α) (r : Nat) : List α := if r < P then (b r).take (edge1 R r) else []

/-- The window that process `r` sorts first: its share from `edge1` on and the head of the next one. -/
def winA (b : Nat → List α) (r : Nat) : List α := (b r).drop (edge1 R r) ++ head P R b (r + 1)

/-- What process `r` receives back. -/
def back (b : Nat → List α) (r : Nat) : List α :=
  if r = 0 then [] else (c.srt (winA P R b (r - 1))).drop (lnt (r - 1) - edge1 R (r - 1))

/-- The window that process `r` sorts second. -/
def winB (b : Nat → List α) (r : Nat) : List α :=
  back c P R lnt b r ++ (c.srt (winA P R b r)).take (lnt r - edge1 R r)

end Round

/-- What holds of the buffers between rounds. -/
def Sized (P R : Nat) (lnt : Nat → Nat) (t : Nat → List α) : Prop :=
  ∀ r, r < P → (t r).length = lnt r + edge2 P R r

/-- The shares within the buffers. -/
def body (lnt : Nat → Nat) (t : Nat → List α) (r : Nat) : List α := (t r).take (lnt r)

section Facts

variable {c : Cfg α β} {P R : Nat} {lnt : Nat → Nat} {t : Nat → List α} {lt : α → α → Bool}

theorem edge1_le (hR : ∀ r, r < P → R ≤ lnt r) {r : Nat} (hr : r < P) : edge1 R r ≤ lnt r := by
  unfold edge1; split
  · exact hR r hr
  · omega

theorem body_length (h : Sized P R lnt t) {r : Nat} (hr : r < P) : (body lnt t r).length = lnt r := by
  simp [body, h r hr]

theorem sendLeft_eq (hm : ∀ x, c.msg x = x) (h : Sized P R lnt t) (hR : ∀ r, r < P → R ≤ lnt r) {r : Nat} (hr : r < P) :
    sendLeft c P R t r = body lnt t r ++ head P R (body lnt t) (r + 1) := by
  have hmap : ∀ l : List α, l.map c.msg = l := by
    intro l
    have : c.msg = id := funext hm
    simp [this]
  unfold sendLeft head
  split
  · next h1 =>
    have hl := h r hr
    unfold edge2 at hl
    rw [if_pos h1] at hl
    rw [if_pos (show r + 1 < P by omega), hmap]
    have h2 : edge1 R (r + 1) = R := by simp [edge1]
    rw [h2]
    unfold body
    rw [List.take_take, Nat.min_eq_left (hR (r + 1) (by omega)), hl, Nat.add_sub_cancel]
  · next h1 =>
    have hl := h r hr
    unfold edge2 at hl
    rw [if_neg h1] at hl
    rw [if_neg (show ¬ r + 1 < P by omega)]
    unfold body
    rw [List.append_nil, List.take_of_length_le (by omega)]

theorem winA_length (h : Sized P R lnt t) (hR : ∀ r, r < P → R ≤ lnt r) {r : Nat} (hr : r < P) :
    (winA P R (body lnt t) r).length = lnt r - edge1 R r + edge2 P R r := by
  unfold winA head
  rw [List.length_append, List.length_drop, body_length h hr]
  congr 1
  unfold edge2
  by_cases h1 : r + 1 < P
  · rw [if_pos h1, if_pos (by omega), List.length_take, body_length h h1]
    have := hR (r + 1) h1
    simp [edge1, this]
  · rw [if_neg h1, if_neg (by omega)]
    rfl

theorem phaseA_eq (hm : ∀ x, c.msg x = x) (h : Sized P R lnt t) (hR : ∀ r, r < P → R ≤ lnt r) {r : Nat} (hr : r < P) :
    sortFrom c (edge1 R r) (sendLeft c P R t r)
      = (body lnt t r).take (edge1 R r) ++ c.srt (winA P R (body lnt t) r) := by
  have he := edge1_le hR hr
  have hb := body_length h hr
  rw [sendLeft_eq hm h hR hr]
  unfold sortFrom winA
  rw [List.take_append_of_le_length (by omega), List.drop_append_of_le_length (by omega)]

theorem sendRight_eq (hs : IsSort lt c.srt) (hm : ∀ x, c.msg x = x) (h : Sized P R lnt t) (hR : ∀ r, r < P → R ≤ lnt r)
    {r : Nat} (hr : r < P) :
    sendRight c R (fun q => sortFrom c (edge1 R q) (sendLeft c P R t q)) r
      = back c P R lnt (body lnt t) r ++ c.srt (winA P R (body lnt t) r) := by
  have hmap : ∀ l : List α, l.map c.msg = l := by
    intro l
    have : c.msg = id := funext hm
    simp [this]
  unfold sendRight back
  by_cases h0 : r = 0
  · rw [if_neg (by simpa using h0), if_pos h0]
    simp only
    rw [phaseA_eq hm h hR hr]
    simp [edge1, h0]
  · rw [if_pos h0, if_neg h0, hmap]
    simp only
    rw [phaseA_eq hm h hR hr, phaseA_eq hm h hR (show r - 1 < P by omega)]
    have hb := body_length h hr
    have hb' := body_length h (show r - 1 < P by omega)
    have he' := edge1_le hR (show r - 1 < P by omega)
    have h2 : edge1 R r = R := by simp [edge1, h0]
    have hRr := hR r hr
    have hw' : (c.srt (winA P R (body lnt t) (r - 1))).length = lnt (r - 1) - edge1 R (r - 1) + R := by
      rw [(hs _).1.length_eq, winA_length h hR (show r - 1 < P by omega)]
      unfold edge2
      rw [if_pos (by omega)]
    congr 1
    · have hl : ((body lnt t (r - 1)).take (edge1 R (r - 1))).length = edge1 R (r - 1) := by
        rw [List.length_take, hb']; omega
      rw [List.drop_append, hl, List.length_append, hl, hw']
      rw [List.drop_eq_nil_of_le (by omega), List.nil_append]
      congr 1
      omega
    · have hl : ((body lnt t r).take (edge1 R r)).length = R := by
        rw [List.length_take, hb, h2]; omega
      rw [List.drop_append, hl, List.drop_eq_nil_of_le (by omega), List.nil_append]
      simp

theorem back_length (hs : IsSort lt c.srt) (h : Sized P R lnt t) (hR : ∀ r, r < P → R ≤ lnt r) {r : Nat} (hr : r < P) :
    (back c P R lnt (body lnt t) r).length = edge1 R r := by
  unfold back
  by_cases h0 : r = 0
  · simp [h0, edge1]
  · rw [if_neg h0, List.length_drop, (hs _).1.length_eq, winA_length h hR (show r - 1 < P by omega)]
    have he' := edge1_le hR (show r - 1 < P by omega)
    unfold edge2
    rw [if_pos (by omega)]
    simp [edge1, h0]

theorem winB_length (hs : IsSort lt c.srt) (h : Sized P R lnt t) (hR : ∀ r, r < P → R ≤ lnt r) {r : Nat} (hr : r < P) :
    (winB c P R lnt (body lnt t) r).length = lnt r := by
  unfold winB
  have he := edge1_le hR hr
  rw [List.length_append, back_length hs h hR hr, List.length_take, (hs _).1.length_eq, winA_length h hR hr]
  omega

/-- One round, in terms of the windows. -/
theorem round_eq (hs : IsSort lt c.srt) (hm : ∀ x, c.msg x = x) (h : Sized P R lnt t) (hR : ∀ r, r < P → R ≤ lnt r)
    {r : Nat} (hr : r < P) :
    (round c P R t r).length = lnt r + edge2 P R r ∧
    (round c P R t r).take (lnt r) = c.srt (winB c P R lnt (body lnt t) r) := by
  have he := edge1_le hR hr
  have hA : (c.srt (winA P R (body lnt t) r)).length = lnt r - edge1 R r + edge2 P R r := by
    rw [(hs _).1.length_eq, winA_length h hR hr]
  have hB := back_length hs h hR hr
  have hlen : (back c P R lnt (body lnt t) r ++ c.srt (winA P R (body lnt t) r)).length = lnt r + edge2 P R r := by
    rw [List.length_append, hB, hA]; omega
  have htake : (back c P R lnt (body lnt t) r ++ c.srt (winA P R (body lnt t) r)).take (lnt r)
      = winB c P R lnt (body lnt t) r := by
    unfold winB
    rw [List.take_append, hB, List.take_of_length_le (by omega)]
  unfold round
  rw [sendRight_eq hs hm h hR hr]
  unfold sortTo
  rw [hlen, Nat.add_sub_cancel, htake]
  have hwl : (c.srt (winB c P R lnt (body lnt t) r)).length = lnt r := by
    rw [(hs _).1.length_eq, winB_length hs h hR hr]
  refine ⟨?_, ?_⟩
  · rw [List.length_append, hwl, List.length_drop, hlen]; omega
  · rw [List.take_append_of_le_length (by omega), List.take_of_length_le (by omega)]

theorem round_sized (hs : IsSort lt c.srt) (hm : ∀ x, c.msg x = x) (h : Sized P R lnt t) (hR : ∀ r, r < P → R ≤ lnt r) :
    Sized P R lnt (round c P R t) := fun _ hr => (round_eq hs hm h hR hr).1

theorem round_body (hs : IsSort lt c.srt) (hm : ∀ x, c.msg x = x) (h : Sized P R lnt t) (hR : ∀ r, r < P → R ≤ lnt r)
    {r : Nat} (hr : r < P) : body lnt (round c P R t) r = c.srt (winB c P R lnt (body lnt t) r) :=
  (round_eq hs hm h hR hr).2

/-- The first windows cut the whole list. -/
theorem flat_winA (hP : 0 < P) (b : Nat → List α) : flat P (winA P R b) = flat P b := by
  have := rebracket (head P R b) (fun r => (b r).drop (edge1 R r)) P
  have h0 : head P R b 0 = [] := by simp [head, edge1, hP]
  have hn : head P R b P = [] := by simp [head]
  rw [h0, hn, List.append_nil, List.nil_append] at this
  unfold winA
  rw [← this]
  apply flat_congr
  intro r hr
  simp [head, hr]

/-- The second windows cut the list that the first sorts leave. -/
theorem flat_winB (hs : IsSort lt c.srt) (h : Sized P R lnt t) (hR : ∀ r, r < P → R ≤ lnt r) (hP : 0 < P) :
    flat P (winB c P R lnt (body lnt t)) = flat P (fun r => c.srt (winA P R (body lnt t) r)) := by
  have := rebracket (back c P R lnt (body lnt t))
    (fun r => (c.srt (winA P R (body lnt t) r)).take (lnt r - edge1 R r)) P
  have h0 : back c P R lnt (body lnt t) 0 = [] := by simp [back]
  have hn : back c P R lnt (body lnt t) P = [] := by
    unfold back
    rw [if_neg (by omega)]
    apply List.drop_eq_nil_of_le
    rw [(hs _).1.length_eq, winA_length h hR (by omega)]
    simp [edge2]
  rw [h0, hn, List.append_nil, List.nil_append] at this
  unfold winB
  rw [this]
  apply flat_congr
  intro r hr
  unfold back
  rw [if_neg (by omega)]
  simp

/-- A round rearranges. -/
theorem round_perm (hs : IsSort lt c.srt) (hm : ∀ x, c.msg x = x) (h : Sized P R lnt t) (hR : ∀ r, r < P → R ≤ lnt r)
    (hP : 0 < P) : (flat P (body lnt (round c P R t))).Perm (flat P (body lnt t)) := by
  rw [flat_congr (fun r hr => round_body hs hm h hR hr)]
  refine (flat_srt_perm hs P _).trans ?_
  rw [flat_winB hs h hR hP]
  refine (flat_srt_perm hs P _).trans ?_
  rw [flat_winA hP]

/-- A round takes away the inversions within its windows. -/
theorem round_inv (hs : IsSort lt c.srt) (hm : ∀ x, c.msg x = x) (h : Sized P R lnt t) (hR : ∀ r, r < P → R ≤ lnt r)
    (hP : 0 < P) :
    inv lt (flat P (body lnt (round c P R t)))
      + ((List.range P).map fun r => inv lt (winB c P R lnt (body lnt t) r)).sum
      + ((List.range P).map fun r => inv lt (winA P R (body lnt t) r)).sum
      = inv lt (flat P (body lnt t)) := by
  rw [flat_congr (fun r hr => round_body hs hm h hR hr), flat_srt_inv hs, flat_winB hs h hR hP, flat_srt_inv hs,
    flat_winA hP]

/-- If a round takes away no inversion, the windows were sorted and the shares stay as they are. -/
theorem round_fix (hs : IsSort lt c.srt) (hm : ∀ x, c.msg x = x) (h : Sized P R lnt t) (hR : ∀ r, r < P → R ≤ lnt r)
    (hP : 0 < P) (ht : TotalOn lt (flat P (body lnt t)))
    (hi : inv lt (flat P (body lnt (round c P R t))) = inv lt (flat P (body lnt t))) :
    (∀ r, r < P → (winA P R (body lnt t) r).Pairwise fun a b => lt b a = false) ∧
    (∀ r, r < P → winB c P R lnt (body lnt t) r = body lnt t r) ∧
    (∀ r, r < P → body lnt (round c P R t) r = body lnt t r) ∧
    (∀ r, r < P → (body lnt t r).Pairwise fun a b => lt b a = false) := by
  have hsum := round_inv hs hm h hR hP
  rw [hi] at hsum
  have hA := sum_zero (n := P) (f := fun r => inv lt (winA P R (body lnt t) r)) (by omega)
  have hB := sum_zero (n := P) (f := fun r => inv lt (winB c P R lnt (body lnt t) r)) (by omega)
  have sA : ∀ r, r < P → (winA P R (body lnt t) r).Pairwise fun a b => lt b a = false :=
    fun r hr => inv_zero.1 (hA r hr)
  have sB : ∀ r, r < P → (winB c P R lnt (body lnt t) r).Pairwise fun a b => lt b a = false :=
    fun r hr => inv_zero.1 (hB r hr)
  have tA : ∀ r, r < P → TotalOn lt (winA P R (body lnt t) r) := by
    intro r hr
    apply ht.mono
    intro x hx
    rw [← flat_winA (R := R) hP (body lnt t)]
    exact mem_flat.2 ⟨r, hr, hx⟩
  have idA : ∀ r, r < P → c.srt (winA P R (body lnt t) r) = winA P R (body lnt t) r :=
    fun r hr => srt_id hs (tA r hr) (sA r hr)
  have eqB : ∀ r, r < P → winB c P R lnt (body lnt t) r = body lnt t r := by
    intro r hr
    have hb := body_length h hr
    have he := edge1_le hR hr
    unfold winB back
    rw [idA r hr]
    have h2 : (winA P R (body lnt t) r).take (lnt r - edge1 R r) = (body lnt t r).drop (edge1 R r) := by
      unfold winA
      rw [List.take_append_of_le_length (by simp; omega), List.take_of_length_le (by simp; omega)]
    rw [h2]
    by_cases h0 : r = 0
    · simp [h0, edge1]
    · rw [if_neg h0, idA (r - 1) (by omega)]
      have hb' := body_length h (show r - 1 < P by omega)
      have h3 : (winA P R (body lnt t) (r - 1)).drop (lnt (r - 1) - edge1 R (r - 1)) = (body lnt t r).take (edge1 R r) := by
        unfold winA
        rw [List.drop_append, List.drop_eq_nil_of_le (by simp; omega)]
        simp only [List.length_drop, hb', Nat.sub_self, List.drop_zero, List.nil_append]
        unfold head
        rw [show r - 1 + 1 = r by omega, if_pos hr]
      rw [h3, List.take_append_drop]
  refine ⟨sA, eqB, ?_, ?_⟩
  · intro r hr
    rw [round_body hs hm h hR hr]
    have : TotalOn lt (winB c P R lnt (body lnt t) r) := by
      rw [eqB r hr]
      exact ht.mono fun x hx => mem_flat.2 ⟨r, hr, hx⟩
    rw [srt_id hs this (sB r hr), eqB r hr]
  · intro r hr
    rw [← eqB r hr]
    exact sB r hr

end Facts

section Sorted

variable {lt : α → α → Bool}

/-- Sorted pieces that meet in order make a sorted whole. -/
theorem append_sorted {x y : List α} (ht : TotalOn lt (x ++ y)) (hx : x.Pairwise fun a b => lt b a = false)
    (hy : y.Pairwise fun a b => lt b a = false)
    (h : ∀ a ∈ x.getLast?, ∀ b ∈ y.head?, lt b a = false) : (x ++ y).Pairwise fun a b => lt b a = false := by
  rw [List.pairwise_append]
  refine ⟨hx, hy, ?_⟩
  intro a ha b hb
  obtain ⟨x', l, rfl⟩ : ∃ x' l, x = x' ++ [l] := by
    rcases List.eq_nil_or_concat x with rfl | ⟨x', l, rfl⟩
    · simp at ha
    · exact ⟨x', l, List.concat_eq_append ..⟩
  cases y with
  | nil => simp at hb
  | cons f y' =>
    have hlf : lt f l = false := h l (by simp) f (by simp)
    have hal : lt l a = false := by
      rcases List.mem_append.1 ha with h1 | h1
      · exact (List.pairwise_append.1 hx).2.2 a h1 l (by simp)
      · rw [List.mem_singleton.1 h1]
        exact ht.irrefl l (by simp)
    have hfb : lt b f = false := by
      rcases List.mem_cons.1 hb with h1 | h1
      · rw [h1]; exact ht.irrefl f (by simp)
      · exact (List.pairwise_cons.1 hy).1 b h1
    have ha' : a ∈ (x' ++ [l]) ++ f :: y' := List.mem_append_left _ ha
    have hb' : b ∈ (x' ++ [l]) ++ f :: y' := List.mem_append_right _ hb
    have hl' : l ∈ (x' ++ [l]) ++ f :: y' := by simp
    have hf' : f ∈ (x' ++ [l]) ++ f :: y' := by simp
    exact ht.le_trans ha' hf' hb' (ht.le_trans ha' hl' hf' hal hlf) hfb

/-- Shares that are sorted, not empty, and meet in order make a sorted whole. -/
theorem flat_sorted {n : Nat} {b : Nat → List α} (ht : TotalOn lt (flat n b))
    (hb : ∀ r, r < n → (b r).Pairwise fun x y => lt y x = false) (hne : ∀ r, r < n → b r ≠ [])
    (hm : ∀ r, r + 1 < n → ∀ x ∈ (b r).getLast?, ∀ y ∈ (b (r + 1)).head?, lt y x = false) :
    (flat n b).Pairwise fun x y => lt y x = false := by
  induction n with
  | zero => simp [flat]
  | succ n ih =>
    rw [flat_succ] at ht ⊢
    have h1 := ih (ht.mono fun x hx => List.mem_append_left _ hx) (fun r hr => hb r (by omega))
      (fun r hr => hne r (by omega)) (fun r hr => hm r (by omega))
    refine append_sorted ht h1 (hb n (by omega)) ?_
    intro x hx y hy
    cases n with
    | zero => simp [flat] at hx
    | succ m =>
      rw [flat_succ] at hx
      have : (flat m b ++ b m).getLast? = (b m).getLast? := by
        rw [List.getLast?_append_of_ne_nil _ (hne m (by omega))]
      rw [this] at hx
      exact hm m (by omega) x hx y hy

end Sorted

section Loop

variable [DecidableEq β] {c : Cfg α β} {P R : Nat} {lnt : Nat → Nat} {lt : α → α → Bool}

theorem changed_false {t t' : Nat → List α} :
    changed c P lnt t t' = false ↔ ∀ r, r < P → (body lnt t' r).map c.key = (body lnt t r).map c.key := by
  unfold changed body
  rw [List.any_eq_false]
  simp

/-- The loop ends, at the latest when no inversion is left to take away. -/
theorem loop_ends (hs : IsSort lt c.srt) (hm : ∀ x, c.msg x = x) (hR : ∀ r, r < P → R ≤ lnt r) (hP : 0 < P) :
    ∀ (fuel : Nat) (t : Nat → List α), Sized P R lnt t → TotalOn lt (flat P (body lnt t)) →
      inv lt (flat P (body lnt t)) < fuel → ∃ t', loop c P R lnt fuel t = some t' := by
  intro fuel
  induction fuel with
  | zero => intro t _ _ h; omega
  | succ n ih =>
    intro t h ht hi
    unfold loop
    cases hc : changed c P lnt t (round c P R t) with
    | false => exact ⟨_, rfl⟩
    | true =>
      simp only [if_true]
      apply ih _ (round_sized hs hm h hR)
      · exact ht.mono fun x hx => (round_perm hs hm h hR hP).mem_iff.1 hx
      · have hle := round_inv hs hm h hR hP
        by_contra hcon
        have heq : inv lt (flat P (body lnt (round c P R t))) = inv lt (flat P (body lnt t)) := by omega
        have := (round_fix hs hm h hR hP ht heq).2.2.1
        have hf : changed c P lnt t (round c P R t) = false :=
          changed_false.2 fun r hr => by rw [this r hr]
        rw [hf] at hc
        exact absurd hc (by decide)

theorem loop_mono (fuel : Nat) : ∀ (t t' : Nat → List α), loop c P R lnt fuel t = some t' →
    ∀ k, loop c P R lnt (fuel + k) t = some t' := by
  induction fuel with
  | zero => intro t t' h; simp [loop] at h
  | succ n ih =>
    intro t t' h k
    rw [show n + 1 + k = (n + k) + 1 by omega]
    unfold loop at h ⊢
    split
    · next h1 =>
      rw [if_pos h1] at h
      exact ih _ _ h k
    · next h1 =>
      rw [if_neg h1] at h
      exact h

/-- What the loop leaves: a rearrangement that one more round would not change. -/
theorem loop_spec (hs : IsSort lt c.srt) (hm : ∀ x, c.msg x = x) (hR : ∀ r, r < P → R ≤ lnt r) (hP : 0 < P) :
    ∀ (fuel : Nat) (t t' : Nat → List α), Sized P R lnt t → loop c P R lnt fuel t = some t' →
      ∃ u, Sized P R lnt u ∧ (flat P (body lnt u)).Perm (flat P (body lnt t)) ∧ t' = round c P R u ∧
        changed c P lnt u (round c P R u) = false := by
  intro fuel
  induction fuel with
  | zero => intro t t' _ h; simp [loop] at h
  | succ n ih =>
    intro t t' h hl
    unfold loop at hl
    cases hc : changed c P lnt t (round c P R t) with
    | false =>
      rw [hc] at hl
      simp only [Bool.false_eq_true, if_false, Option.some.injEq] at hl
      exact ⟨t, h, List.Perm.refl _, hl.symm, hc⟩
    | true =>
      rw [hc] at hl
      simp only [if_true] at hl
      obtain ⟨u, h1, h2, h3, h4⟩ := ih _ _ (round_sized hs hm h hR) hl
      exact ⟨u, h1, h2.trans (round_perm hs hm h hR hP), h3, h4⟩

omit [DecidableEq β] in
theorem map_key_inj {key : α → β} {l l' all : List α} (hk : ∀ a ∈ all, ∀ b ∈ all, key a = key b → a = b)
    (hl : ∀ x ∈ l, x ∈ all) (hl' : ∀ x ∈ l', x ∈ all) (h : l.map key = l'.map key) : l = l' := by
  induction l generalizing l' with
  | nil => cases l' with
    | nil => rfl
    | cons _ _ => simp at h
  | cons a l ih => cases l' with
    | nil => simp at h
    | cons b l' =>
      simp only [List.map_cons, List.cons.injEq] at h
      rw [hk a (hl a (by simp)) b (hl' b (by simp)) h.1,
        ih (fun x hx => hl x (by simp [hx])) (fun x hx => hl' x (by simp [hx])) h.2]

/-- When a round changes nothing the whole is sorted, provided the processes exchange something. -/
theorem fix_sorted (hs : IsSort lt c.srt) (hm : ∀ x, c.msg x = x) (hR : ∀ r, r < P → 2 * R ≤ lnt r) (h1 : 1 ≤ R)
    (hP : 0 < P) {u : Nat → List α} (h : Sized P R lnt u) (ht : TotalOn lt (flat P (body lnt u)))
    (hk : ∀ a ∈ flat P (body lnt u), ∀ b ∈ flat P (body lnt u), c.key a = c.key b → a = b)
    (hc : changed c P lnt u (round c P R u) = false) :
    (flat P (body lnt (round c P R u))).Pairwise fun a b => lt b a = false := by
  have hR' : ∀ r, r < P → R ≤ lnt r := fun r hr => by have := hR r hr; omega
  have hp := round_perm hs hm h hR' hP
  have hsame : ∀ r, r < P → body lnt (round c P R u) r = body lnt u r := by
    intro r hr
    refine map_key_inj hk ?_ ?_ (changed_false.1 hc r hr)
    · intro x hx
      exact hp.mem_iff.1 (mem_flat.2 ⟨r, hr, hx⟩)
    · intro x hx
      exact mem_flat.2 ⟨r, hr, hx⟩
  have hflat : flat P (body lnt (round c P R u)) = flat P (body lnt u) := flat_congr hsame
  obtain ⟨sA, _, _, sb⟩ := round_fix hs hm h hR' hP ht (by rw [hflat])
  rw [hflat]
  refine flat_sorted ht sb ?_ ?_
  · intro r hr he
    have := body_length h hr
    rw [he] at this
    have := hR r hr
    simp at *
    omega
  · intro r hr x hx y hy
    have hl := body_length h (show r < P by omega)
    have hl' := body_length h hr
    have hw := sA r (by omega)
    unfold winA at hw
    refine (List.pairwise_append.1 hw).2.2 x ?_ y ?_
    · have h2 := hR r (by omega)
      have he : edge1 R r ≤ R := by unfold edge1; split <;> omega
      have : (body lnt u r).getLast? = ((body lnt u r).drop (edge1 R r)).getLast? := by
        rw [List.getLast?_drop, if_neg (by omega)]
      rw [this] at hx
      exact List.mem_of_getLast? hx
    · unfold head
      rw [if_pos hr]
      have he : edge1 R (r + 1) = R := by simp [edge1]
      rw [he]
      have : (body lnt u (r + 1)).head? = ((body lnt u (r + 1)).take R).head? := by
        rw [List.head?_take, if_neg (by omega)]
      rw [this] at hy
      exact List.mem_of_head? hy

end Loop

end Verif.Sort
