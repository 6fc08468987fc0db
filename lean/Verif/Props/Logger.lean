import Verif.Ops.Logger

/-!
C39: errors stick, and only messages within the verbosity are stored.
-/

namespace Verif.Ops

variable {M : Type}

/-- The record a call makes, if any. -/
def LogOp.item? : LogOp M → Option (Item M)
  | .record i => some i
  | .recordIf i c => if c then some i else none
  | .procLog => none

theorem record_spec (l : Log M) (i : Item M) : (l.record i).maxLevel = l.maxLevel ∧
    (l.record i).error = (l.error || decide (i.stat = .error)) ∧
    (l.record i).loglist = (if i.vrbsy ≤ l.maxLevel then [i] else []) ++ l.loglist ∧ (l.record i).printed = l.printed := by
  unfold Log.record
  by_cases h : i.vrbsy ≤ l.maxLevel <;> by_cases h2 : i.stat = .error <;> simp [h, h2]

/-- C39, errors: after any sequence of calls the log reports an error exactly if some call recorded one. In
particular an error stays for ever, whatever is recorded or printed later, and there is none without an error record;
the level of the message does not matter. -/
theorem C39_error (lvl : Nat) (ops : List (LogOp M)) :
    (ops.foldl Log.step (Log.new lvl)).isErr = true ↔ ∃ op ∈ ops, ∃ i, op.item? = some i ∧ i.stat = .error := by
  have h : ∀ l : Log M, (ops.foldl Log.step l).isErr = true ↔
      l.error = true ∨ ∃ op ∈ ops, ∃ i, op.item? = some i ∧ i.stat = .error := by
    induction ops with
    | nil => intro l; simp [Log.isErr]
    | cons op ops ih =>
      intro l
      rw [List.foldl_cons, ih]
      have hop : (l.step op).error = true ↔ l.error = true ∨ ∃ i, op.item? = some i ∧ i.stat = .error := by
        cases op with
        | record i => simp [Log.step, (record_spec l i).2.1, LogOp.item?]
        | recordIf i c =>
          cases c with
          | true => simp [Log.step, Log.recordIf, (record_spec l i).2.1, LogOp.item?]
          | false => simp [Log.step, Log.recordIf, LogOp.item?]
        | procLog => simp [Log.step, Log.procLog, LogOp.item?]
      rw [hop, or_assoc]
      simp
  rw [h]
  simp [Log.new]

example : ∃ op ∈ [LogOp.record ⟨.error, "e", 9⟩, .procLog], ∃ i, op.item? = some i ∧ i.stat = .error := by
  simp [LogOp.item?]

/-- What has been stored and what printed, both oldest first, after any sequence of calls: all records with a
verbosity within the limit, each once and in order, and no other. What is printed is all that was stored, newest first
between two prints. -/
theorem C39_stored (lvl : Nat) (ops : List (LogOp M)) :
    let l := ops.foldl Log.step (Log.new lvl)
    (∀ i ∈ l.loglist ++ l.printed, i.vrbsy ≤ lvl) ∧
      (l.loglist ++ l.printed).Perm ((ops.filterMap LogOp.item?).filter fun i => i.vrbsy ≤ lvl) ∧
      l.loglist = (((ops.reverse.takeWhile fun o => match o with | .procLog => false | _ => true).filterMap
        LogOp.item?).filter fun i => i.vrbsy ≤ lvl) := by
  have hfold : ∀ a b : List (Item M), a.foldl (fun p i => i :: p) b = a.reverse ++ b := by
    intro a
    induction a with
    | nil => intro b; rfl
    | cons x a ih => intro b; simp [ih]
  -- state after any prefix of the calls
  have key : ∀ (n : Nat) (ops : List (LogOp M)), ops.length = n → let l := ops.foldl Log.step (Log.new lvl)
      l.maxLevel = lvl ∧ (l.loglist ++ l.printed).Perm ((ops.filterMap LogOp.item?).filter fun i => i.vrbsy ≤ lvl) ∧
      l.loglist = (((ops.reverse.takeWhile fun o => match o with | .procLog => false | _ => true).filterMap
        LogOp.item?).filter fun i => i.vrbsy ≤ lvl) := by
    intro n
    induction n with
    | zero =>
      intro ops h
      have : ops = [] := List.length_eq_zero_iff.1 h
      subst this
      exact ⟨rfl, List.Perm.refl _, rfl⟩
    | succ n ih =>
      intro ops h
      obtain ⟨init, op, rfl⟩ : ∃ init op, ops = init ++ [op] := by
        rcases List.eq_nil_or_concat ops with he | ⟨a, b, he⟩
        · rw [he] at h; simp at h
        · exact ⟨a, b, by rw [he, List.concat_eq_append]⟩
      obtain ⟨h1, h2, h3⟩ := ih init (by simpa using h)
      simp only [List.foldl_append, List.foldl_cons, List.foldl_nil]
      generalize init.foldl Log.step (Log.new lvl) = l at h1 h2 h3
      have hrec : ∀ i : Item M, (l.record i).maxLevel = lvl ∧
          ((l.record i).loglist ++ (l.record i).printed).Perm
            ((init.filterMap LogOp.item? ++ [i]).filter fun i => i.vrbsy ≤ lvl) ∧
          (l.record i).loglist = (if i.vrbsy ≤ lvl then [i] else []) ++ l.loglist := by
        intro i
        obtain ⟨r1, _, r3, r4⟩ := record_spec l i
        rw [h1] at r1 r3
        refine ⟨r1, ?_, r3⟩
        rw [r3, r4, List.filter_append, List.append_assoc]
        by_cases hv : i.vrbsy ≤ lvl
        · simp only [hv, ↓reduceIte, List.filter_cons, decide_true, List.filter_nil]
          refine List.Perm.trans ?_ (List.perm_append_comm)
          simpa using h2
        · simpa [hv] using h2
      cases op with
      | record i =>
        obtain ⟨r1, r2, r3⟩ := hrec i
        refine ⟨r1, by simpa [LogOp.item?, Log.step] using r2, ?_⟩
        simp only [Log.step, r3, h3, List.reverse_append, List.reverse_cons, List.reverse_nil, List.nil_append,
          List.cons_append, List.takeWhile_cons, ↓reduceIte, List.filterMap_cons, LogOp.item?, List.filter_cons,
          decide_eq_true_eq]
        split <;> rfl
      | recordIf i c =>
        cases c with
        | true =>
          obtain ⟨r1, r2, r3⟩ := hrec i
          refine ⟨r1, by simpa [LogOp.item?, Log.step, Log.recordIf] using r2, ?_⟩
          simp only [Log.step, Log.recordIf, r3, h3, List.reverse_append, List.reverse_cons, List.reverse_nil,
            List.nil_append, List.cons_append, List.takeWhile_cons, ↓reduceIte, List.filterMap_cons, LogOp.item?,
            List.filter_cons, decide_eq_true_eq]
          split <;> rfl
        | false =>
          refine ⟨h1, by simpa [LogOp.item?, Log.step, Log.recordIf] using h2, ?_⟩
          simpa [Log.step, Log.recordIf, LogOp.item?] using h3
      | procLog =>
        refine ⟨h1, ?_, ?_⟩
        · simp only [Log.step, Log.procLog, hfold, List.nil_append, List.filterMap_append, List.filterMap_cons,
            LogOp.item?, List.filterMap_nil, List.append_nil]
          exact (List.Perm.append_right _ (List.reverse_perm _)).trans h2
        · simp [Log.step, Log.procLog]
  obtain ⟨_, h2, h3⟩ := key ops.length ops rfl
  refine ⟨?_, h2, h3⟩
  intro i hi
  have := (h2.mem_iff.1 hi)
  simpa using (List.mem_filter.1 this).2

example : ([LogOp.record ⟨.note, 'a', 1⟩, .record ⟨.error, 'b', 3⟩, .procLog, .record ⟨.warning, 'c', 0⟩].foldl Log.step
    (Log.new 1)).loglist = [⟨.warning, 'c', 0⟩] := by decide

/-- `numStat` counts the stored records of a status. -/
theorem C39_count (l : Log M) (s : Status) : l.numStat s = l.loglist.countP fun i => i.stat = s := by
  unfold Log.numStat
  have h : ∀ (a : List (Item M)) (n : Nat),
      a.foldl (fun n i => if i.stat = s then n + 1 else n) n = n + a.countP fun i => i.stat = s := by
    intro a
    induction a with
    | nil => intro n; rfl
    | cons x a ih =>
      intro n
      rw [List.foldl_cons, ih, List.countP_cons]
      by_cases hx : x.stat = s
      · simp [hx]; omega
      · simp [hx]
  rw [h]
  omega

/-- The check that ends the process ends it exactly if an error was recorded, having printed all stored records. -/
theorem C39_check (l : Log M) (fatal : M) : (checkErr l fatal).2 = l.isErr ∧
    ((checkErr l fatal).2 = true → ∀ i ∈ l.loglist, i ∈ (checkErr l fatal).1.printed) := by
  unfold checkErr
  split
  · rename_i h
    refine ⟨by rw [h], ?_⟩
    intro _ i hi
    have hfold : ∀ a b : List (Item M), a.foldl (fun p i => i :: p) b = a.reverse ++ b := by
      intro a
      induction a with
      | nil => intro b; rfl
      | cons x a ih => intro b; simp [ih]
    obtain ⟨_, _, r3, _⟩ := record_spec l ⟨.error, fatal, 0⟩
    simp only [Log.procLog, hfold, r3]
    simp [hi]
  · rename_i h
    exact ⟨by simpa using h, fun h => by simp at h⟩

end Verif.Ops
