import Verif.Ops.Comm
import Mathlib.Data.List.Nodup
import Mathlib.Algebra.Order.BigOperators.Group.List

/-!
C70 (offset is the sum over the processes before).
-/

namespace Verif.Ops

theorem foldl_add64 (l : List Nat) : ∀ a, l.foldl add64 a % 2 ^ 64 = (a + l.sum) % 2 ^ 64 := by
  induction l with
  | nil => intro a; simp
  | cons x l ih =>
    intro a
    rw [List.foldl_cons, ih, List.sum_cons]
    unfold add64
    omega

theorem sum64_eq (l : List Nat) : sum64 l = l.sum % 2 ^ 64 := by
  have h := foldl_add64 l 0
  have hlt : l.foldl add64 0 < 2 ^ 64 := by
    suffices ∀ (l : List Nat) a, a < 2 ^ 64 → l.foldl add64 a < 2 ^ 64 from this l 0 (by decide)
    intro l
    induction l with
    | nil => intro a ha; exact ha
    | cons x l ih => intro a _; exact ih _ (Nat.mod_lt _ (by decide))
  unfold sum64
  rw [Nat.mod_eq_of_lt hlt] at h
  rw [h, Nat.zero_add]

theorem takeWhile_before (l1 l2 : List Nat) (w : Nat) (h : w ∉ l1) : (l1 ++ w :: l2).takeWhile (· ≠ w) = l1 := by
  induction l1 with
  | nil => simp
  | cons x l1 ih =>
    have hx : x ≠ w := fun e => h (by simp [e])
    rw [List.cons_append, List.takeWhile_cons, if_pos (by simpa using hx), ih (fun hm => h (by simp [hm]))]

/-- C70, kept part: on the communicator of all processes, if all make the call, a process gets the sum of the values of
the processes before it. What is missing: any other communicator (`C70_hang_refuted`, `C70_split_refuted`). -/
theorem C70_world_partial (world : List Nat) (vals : Nat → Nat) (before after : List Nat) (w : Nat)
    (hw : world = before ++ w :: after) (hn : world.Nodup) (hs : (before.map vals).sum < 2 ^ 64) :
    offset world world (fun w' => some (vals w')) w = some (.ok (before.map vals).sum) := by
  subst hw
  have hb : w ∉ before := by
    intro h
    have := (List.nodup_append.1 hn).2.2 w h w (by simp)
    exact this rfl
  unfold offset exscan
  rw [if_pos (by simp)]
  simp only [takeWhile_before before after w hb, Option.getD_some, Option.some.injEq]
  cases before with
  | nil => simp
  | cons x before =>
    have hx : x ≠ w := fun e => hb (by simp [e])
    rw [if_neg (by simpa using hx), if_neg (by simp), sum64_eq, Nat.mod_eq_of_lt hs]

/-- Four processes. -/
example : offset [0, 1, 2, 3] [0, 1, 2, 3] (fun w => some (10 * (w + 1))) 2 = some (.ok 30) := by decide

/-- C70 fails: if the communicator does not have all processes and only its members make the call, the call does not
return, on any of them. -/
theorem C70_hang_refuted (world comm : List Nat) (vals : Nat → Nat) (h : ∃ w ∈ world, w ∉ comm) (w : Nat) :
    offset world comm (fun w' => if w' ∈ comm then some (vals w') else none) w = none := by
  obtain ⟨x, hx, hc⟩ := h
  unfold offset exscan
  rw [if_neg]
  intro hall
  have := List.all_eq_true.1 hall x hx
  simp [hc] at this

example : ∃ w ∈ [0, 1, 2], w ∉ [0, 1] := by decide

/-- C70 fails: if the world is split in two communicators and both make the call, a process of the second that is not its
first gets the values of all processes of the first added, which is wrong unless all of them are zero. -/
theorem C70_split_refuted (low before after : List Nat) (w : Nat) (vals : Nat → Nat) (hl : 0 < (low.map vals).sum)
    (hb : before ≠ [])
    (hn : (low ++ (before ++ w :: after)).Nodup) (hs : ((low ++ before).map vals).sum < 2 ^ 64) :
    offset (low ++ (before ++ w :: after)) (before ++ w :: after) (fun w' => some (vals w')) w
        = some (.ok ((low.map vals).sum + (before.map vals).sum)) ∧
      (low.map vals).sum + (before.map vals).sum ≠ (before.map vals).sum := by
  refine ⟨?_, by omega⟩
  have hb' : w ∉ low ++ before := by
    intro h
    rw [← List.append_assoc] at hn
    exact (List.nodup_append.1 hn).2.2 w h w (by simp) rfl
  unfold offset exscan
  rw [if_pos (by simp)]
  rw [← List.append_assoc, takeWhile_before (low ++ before) after w hb']
  simp only [Option.getD_some, Option.some.injEq]
  cases before with
  | nil => exact absurd rfl hb
  | cons x before =>
    have hx : x ≠ w := fun e => hb' (by simp [e])
    rw [if_neg (by simpa using hx), if_neg (by simp), sum64_eq, Nat.mod_eq_of_lt hs, List.map_append, List.sum_append]

/-- Two pairs of processes: the last one gets 60 where 30 is before it. -/
example : offset [0, 1, 2, 3] [2, 3] (fun w => some (10 * (w + 1))) 3 = some (.ok 60) := by decide

end Verif.Ops
