import Verif.Flow.Cache

/-!
# C72: the cache of parameters

The cache gives, for a list of files and a rule, the parameters of these files under this rule, and reads files only when
it does not hold them; `checkPrm`/`checkTrc` tell whether it does; `cacheTrc` gives traces.
-/

namespace Verif.Props

open Verif.Flow

variable {D R α S : Type} [DecidableEq D]

/-- The rule of the call that first asked for the parameters of files since they were last dropped. -/
def firstRule (d : List D) : List (CCall D R) → Option R
  | [] => none
  | calls => calls.foldl (fun cur o => match o with
    | .prm r d' => if d' = d then some (cur.getD r) else cur
    | .trc _ => cur
    | .flush d' => if d' = d then none else cur) none

/-- One step of `firstRule`, used in the proofs. -/
def nextRule (d : List D) (cur : Option R) : CCall D R → Option R
  | .prm r d' => if d' = d then some (cur.getD r) else cur
  | .trc _ => cur
  | .flush d' => if d' = d then none else cur

theorem firstRule_eq (d : List D) (calls : List (CCall D R)) : firstRule d calls = calls.foldl (nextRule d) none := by
  cases calls with
  | nil => rfl
  | cons o os =>
    unfold firstRule
    have : (fun (cur : Option R) (o : CCall D R) => match o with
      | .prm r d' => if d' = d then some (cur.getD r) else cur
      | .trc _ => cur
      | .flush d' => if d' = d then none else cur) = nextRule d := by
      funext c o; cases o <;> rfl
    rw [this]

/-- The element found for files, used in the proofs. -/
def elemOf (d : List D) (c : List (CElem D R α S)) : Option (CElem D R α S) := c.find? (fun e => decide (e.desc = d))

theorem getCache_found (load : R → List D → α) (rule : Option R) (d : List D) (b : Block R α S) (p : R × α)
    (hb : b.prm = some p) : ∀ (c : List (CElem D R α S)) (e : CElem D R α S), elemOf d c = some e → e.block = some b →
    getCache load rule d c = .ok ⟨c, b, false⟩ := by
  intro c
  induction c with
  | nil => intro e h; simp [elemOf] at h
  | cons x c ih =>
    intro e h he
    unfold getCache
    by_cases hx : x.desc = d
    · simp only [elemOf, List.find?_cons, hx, decide_true, Option.some.injEq] at h
      subst h
      rw [if_pos hx, he]
      simp [hb]
    · simp only [elemOf, List.find?_cons, hx, decide_false] at h
      rw [if_neg hx, ih e h he]
      rfl

theorem getCache_absent (load : R → List D → α) (r : R) (d : List D) (hd : d ≠ []) :
    ∀ (c : List (CElem D R α S)), elemOf d c = none →
    getCache load (some r) d c = .ok ⟨c ++ [⟨d, some ⟨some (r, load r d), []⟩⟩], ⟨some (r, load r d), []⟩, true⟩ := by
  intro c
  have hr : readAll load (some r) d = .ok (r, load r d) := by
    cases d with
    | nil => exact absurd rfl hd
    | cons a d => rfl
  induction c with
  | nil => intro _; simp [getCache, hr]
  | cons x c ih =>
    intro h
    unfold getCache
    by_cases hx : x.desc = d
    · simp [elemOf, hx] at h
    · simp only [elemOf, List.find?_cons, hx, decide_false] at h
      rw [if_neg hx, ih h]
      rfl

theorem getCache_norule (load : R → List D → α) (d : List D) : ∀ (c : List (CElem D R α S)), elemOf d c = none →
    getCache load none d c = .ub := by
  intro c
  induction c with
  | nil => intro _; simp [getCache, readAll]
  | cons x c ih =>
    intro h
    unfold getCache
    by_cases hx : x.desc = d
    · simp [elemOf, hx] at h
    · simp only [elemOf, List.find?_cons, hx, decide_false] at h
      rw [if_neg hx, ih h]
      rfl

theorem getCache_nofiles (load : R → List D → α) (rule : Option R) : ∀ (c : List (CElem D R α S)), elemOf [] c = none →
    getCache load rule [] c = .ub := by
  intro c
  induction c with
  | nil => intro _; cases rule <;> simp [getCache, readAll]
  | cons x c ih =>
    intro h
    unfold getCache
    by_cases hx : x.desc = []
    · simp [elemOf, hx] at h
    · simp only [elemOf, List.find?_cons, hx, decide_false] at h
      rw [if_neg hx, ih h]
      rfl

theorem flush_absent (d : List D) : ∀ (c : List (CElem D R α S)), elemOf d c = none → flush d c = .ub := by
  intro c
  induction c with
  | nil => intro _; rfl
  | cons x c ih =>
    intro h
    unfold flush
    by_cases hx : x.desc = d
    · simp [elemOf, hx] at h
    · simp only [elemOf, List.find?_cons, hx, decide_false] at h
      rw [if_neg hx, ih h]
      rfl

theorem flush_found (d : List D) : ∀ (c : List (CElem D R α S)), elemOf d c ≠ none →
    flush d c = .ok (c.eraseP (fun e => decide (e.desc = d))) := by
  intro c
  induction c with
  | nil => intro h; simp [elemOf] at h
  | cons x c ih =>
    intro h
    unfold flush
    by_cases hx : x.desc = d
    · simp [hx]
    · simp only [elemOf, List.find?_cons, hx, decide_false] at h
      rw [if_neg hx, ih h]
      simp [hx]

theorem elemOf_erase_other {d d' : List D} (h : d' ≠ d) : ∀ (c : List (CElem D R α S)),
    elemOf d' (c.eraseP (fun e => decide (e.desc = d))) = elemOf d' c := by
  intro c
  induction c with
  | nil => rfl
  | cons x c ih =>
    unfold elemOf at ih ⊢
    by_cases hx : x.desc = d
    · have : ¬ x.desc = d' := fun h' => h (h'.symm.trans hx)
      simp only [List.eraseP_cons, hx, decide_true, cond_true, List.find?_cons]
      rw [show decide (d = d') = false by simpa using fun h' => h h'.symm]
    · simp only [List.eraseP_cons, hx, decide_false, cond_false, List.find?_cons]
      rw [ih]

theorem elemOf_erase_self (d : List D) : ∀ (c : List (CElem D R α S)), (c.map CElem.desc).Nodup →
    elemOf d (c.eraseP (fun e => decide (e.desc = d))) = none := by
  intro c
  induction c with
  | nil => intro _; rfl
  | cons x c ih =>
    intro hn
    simp only [List.map_cons, List.nodup_cons] at hn
    by_cases hx : x.desc = d
    · simp only [List.eraseP_cons, hx, decide_true, cond_true]
      unfold elemOf
      rw [List.find?_eq_none]
      intro e he h'
      simp only [decide_eq_true_eq] at h'
      exact hn.1 (by rw [hx, ← h']; exact List.mem_map_of_mem he)
    · have := ih hn.2
      unfold elemOf at this ⊢
      simp only [List.eraseP_cons, hx, decide_false, cond_false, List.find?_cons]
      exact this

/-- What the cache holds when the rules of the files in it are `f`; used in the proofs. -/
def Holds (load : R → List D → α) (f : List D → Option R) (c : List (CElem D R α S)) : Prop :=
  (∀ d, elemOf d c = (f d).map fun r => ⟨d, some ⟨some (r, load r d), []⟩⟩) ∧ (c.map CElem.desc).Nodup

theorem holds_step (load : R → List D → α) (f : List D → Option R) (c c' : List (CElem D R α S)) (o : CCall D R)
    (h : Holds load f c) (ho : o.step load c = .ok c') : Holds load (fun d => nextRule d (f d) o) c' := by
  cases o with
  | prm r d =>
    simp only [CCall.step, cachePrm] at ho
    have hd := h.1 d
    cases hf : f d with
    | some r' =>
      rw [hf] at hd
      rw [getCache_found load (some r) d _ _ rfl c _ hd rfl] at ho
      cases ho
      refine ⟨fun d' => ?_, h.2⟩
      rw [h.1 d']
      simp only [nextRule]
      by_cases hdd : d = d'
      · subst hdd; simp [hf]
      · rw [if_neg hdd]
    | none =>
      rw [hf] at hd
      have hne : d ≠ [] := by
        intro h'; subst h'
        rw [getCache_nofiles load (some r) c hd] at ho; cases ho
      rw [getCache_absent load r d hne c hd] at ho
      cases ho
      refine ⟨fun d' => ?_, ?_⟩
      · simp only [nextRule]
        by_cases hdd : d = d'
        · subst hdd
          have h0 := hd
          unfold elemOf at h0 ⊢
          rw [List.find?_append, h0]
          simp [hf]
        · have h0 := h.1 d'
          unfold elemOf at h0 ⊢
          rw [List.find?_append, h0, if_neg hdd]
          simp [hdd]
      · simp only [List.map_append, List.map_cons, List.map_nil]
        rw [List.nodup_append]
        refine ⟨h.2, by simp, ?_⟩
        intro a ha b hb hab
        simp only [List.mem_singleton] at hb
        subst hb; subst hab
        obtain ⟨e, he, hea⟩ := List.mem_map.1 ha
        have hd' : elemOf a c = none := hd
        unfold elemOf at hd'
        rw [List.find?_eq_none] at hd'
        exact hd' e he (by simpa using hea)
  | trc d =>
    simp only [CCall.step, cacheTrc] at ho
    have hd := h.1 d
    cases hf : f d with
    | some r' =>
      rw [hf] at hd
      rw [getCache_found load none d _ _ rfl c _ hd rfl] at ho
      cases ho
      exact h
    | none =>
      rw [hf] at hd
      rw [getCache_norule load d c hd] at ho
      cases ho
  | flush d =>
    simp only [CCall.step] at ho
    have hd := h.1 d
    cases hf : f d with
    | none =>
      rw [hf] at hd
      rw [flush_absent d c hd] at ho
      cases ho
    | some r =>
      rw [hf] at hd
      rw [flush_found d c (by rw [hd]; simp)] at ho
      cases ho
      refine ⟨fun d' => ?_, ?_⟩
      · simp only [nextRule]
        by_cases hdd : d = d'
        · subst hdd
          rw [elemOf_erase_self d c h.2]; simp
        · rw [elemOf_erase_other (fun h' => hdd h'.symm), h.1 d', if_neg hdd]
      · exact h.2.sublist ((List.eraseP_sublist).map _)

theorem holds_after (load : R → List D → α) : ∀ (calls : List (CCall D R)) (f : List D → Option R)
    (c c' : List (CElem D R α S)), Holds load f c → cacheAfter load c calls = .ok c' →
    Holds load (fun d => calls.foldl (nextRule d) (f d)) c' := by
  intro calls
  induction calls with
  | nil => intro f c c' h hc; cases hc; exact h
  | cons o os ih =>
    intro f c c' h hc
    unfold cacheAfter at hc
    cases ho : o.step load c with
    | ok c1 =>
      rw [ho] at hc
      exact ih _ c1 c' (holds_step load f c c1 o h ho) hc
    | ub => rw [ho] at hc; cases hc
    | abort => rw [ho] at hc; cases hc

theorem holds_calls (load : R → List D → α) (calls : List (CCall D R)) (c : List (CElem D R α S))
    (hc : cacheAfter load [] calls = .ok c) : Holds load (fun d => firstRule d calls) c := by
  have := holds_after load calls (fun _ => none) [] c ⟨fun d => rfl, List.nodup_nil⟩ hc
  simpa only [firstRule_eq] using this

theorem holds_at (load : R → List D → α) (calls : List (CCall D R)) (c : List (CElem D R α S))
    (hc : cacheAfter load [] calls = .ok c) (d : List D) :
    elemOf d c = (firstRule d calls).map fun r => ⟨d, some ⟨some (r, load r d), []⟩⟩ := (holds_calls load calls c hc).1 d

/-- **C72** (partial: the claim asks for the rule of the call itself, see `C72_rule_refuted`). After any calls on a new
cache, asking for the parameters of at least one file succeeds and gives the parameters of exactly these files, read with
the rule of the call that first asked for them since they were last dropped (this call, if none did). Files are read if
and only if no such call was made, and what is held for other files does not change. -/
theorem C72_reads_partial (load : R → List D → α) (calls : List (CCall D R)) (c : List (CElem D R α S)) (r : R)
    (d : List D) (hd : d ≠ []) (hc : cacheAfter load [] calls = .ok c) :
    ∃ g : Got D R α S, cachePrm load r d c = .ok g ∧
      (∃ r', (r' = r ∨ firstRule d calls = some r') ∧ (firstRule d calls ≠ none → firstRule d calls = some r') ∧
        g.block.prm = some (r', load r' d)) ∧
      (g.io = true ↔ firstRule d calls = none) ∧
      ∀ (d' : List D) (r2 : R), d' ≠ d → ∀ g1 g2, cachePrm load r2 d' c = .ok g1 → cachePrm load r2 d' g.cache = .ok g2 →
        g1.block = g2.block ∧ g1.io = g2.io := by
  have h := holds_calls load calls c hc
  have hd1 := holds_at load calls c hc d
  have hall : ∀ (c1 : List (CElem D R α S)) (g : Got D R α S), Holds load (fun d => firstRule d calls) c →
      (∀ d', d' ≠ d → elemOf d' c1 = elemOf d' c) → g.cache = c1 →
      ∀ (d' : List D) (r2 : R), d' ≠ d → ∀ g1 g2, cachePrm load r2 d' c = .ok g1 → cachePrm load r2 d' g.cache = .ok g2 →
        g1.block = g2.block ∧ g1.io = g2.io := by
    intro c1 g hh hs hg d' r2 hdd g1 g2 h1 h2
    rw [hg] at h2
    unfold cachePrm at h1 h2
    have hd' := holds_at load calls c hc d'
    have hs' := hs d' hdd
    cases hf : firstRule d' calls with
    | some r' =>
      rw [hf] at hd'
      rw [getCache_found load (some r2) d' _ _ rfl c _ hd' rfl] at h1
      rw [getCache_found load (some r2) d' _ _ rfl c1 _ (hs'.trans hd') rfl] at h2
      cases h1; cases h2
      exact ⟨rfl, rfl⟩
    | none =>
      rw [hf] at hd'
      by_cases hne : d' = []
      · subst hne
        rw [getCache_nofiles load (some r2) c hd'] at h1; cases h1
      · rw [getCache_absent load r2 d' hne c hd'] at h1
        rw [getCache_absent load r2 d' hne c1 (hs'.trans hd')] at h2
        cases h1; cases h2
        exact ⟨rfl, rfl⟩
  cases hf : firstRule d calls with
  | some r' =>
    rw [hf] at hd1
    refine ⟨_, getCache_found load (some r) d _ _ rfl c _ hd1 rfl, ⟨r', Or.inr rfl, fun _ => rfl, rfl⟩, by simp, ?_⟩
    exact hall c _ h (fun _ _ => rfl) rfl
  | none =>
    rw [hf] at hd1
    refine ⟨_, getCache_absent load r d hd c hd1, ⟨r, Or.inl rfl, fun h => absurd rfl h, rfl⟩, by simp, ?_⟩
    refine hall _ _ h (fun d' hdd => ?_) rfl
    unfold elemOf
    rw [List.find?_append]
    simp [show ¬ d = d' from fun h' => hdd h'.symm]

/-- Two lists of files, one dropped and asked for again. -/
example : ∃ c : List (CElem Nat Nat (List Nat) Int), cacheAfter (fun r d => d.map (· + r)) []
    [.prm 10 [1, 2], .prm 20 [3], .trc [3], .flush [1, 2], .prm 30 [1, 2]] = .ok c ∧
    firstRule [1, 2] [CCall.prm 10 [1, 2], .prm 20 [3], .trc [3], .flush [1, 2], .prm 30 [1, 2]] = some 30 ∧
    firstRule [3] [CCall.prm 10 [1, 2], .prm 20 [3], .trc [3], .flush [1, 2], .prm 30 [1, 2]] = some 20 :=
  ⟨_, rfl, rfl, rfl⟩

/-- **C72 is false for the rule.** Whatever calls were made before: once the parameters of some files were asked for with
one rule, asking for them with another rule gives the parameters of the first rule, and reads nothing. -/
theorem C72_rule_refuted (load : R → List D → α) (calls : List (CCall D R)) (r r' : R) (d : List D) (hr : r ≠ r')
    (c : List (CElem D R α S)) (hd : d ≠ []) (hc : cacheAfter load [] calls = .ok c) (hn : firstRule d calls = none) :
    ∃ g1 g2 : Got D R α S, cachePrm load r d c = .ok g1 ∧ cachePrm load r' d g1.cache = .ok g2 ∧ g2.io = false ∧
      g2.block.prm = some (r, load r d) ∧ g2.block.prm ≠ some (r', load r' d) := by
  have hd1 := holds_at load calls c hc d
  rw [hn] at hd1
  have he : elemOf d (c ++ [⟨d, some ⟨some (r, load r d), []⟩⟩]) = some ⟨d, some ⟨some (r, load r d), []⟩⟩ := by
    unfold elemOf at hd1 ⊢
    rw [List.find?_append, hd1]
    simp
  refine ⟨_, _, getCache_absent load r d hd c hd1, getCache_found load (some r') d _ _ rfl _ _ he rfl, rfl, rfl, ?_⟩
  intro h'
  simp only [Option.some.injEq, Prod.mk.injEq] at h'
  exact hr h'.1

/-- **C72 is false for the checks of an element.** They never say that anything is held, and for an element of these files
without a block, which they are meant to tell from the others, they read through the null pointer. -/
theorem C72_element_refuted (e : CElem D R α S) (d : List D) :
    e.checkPrm d ≠ .ok true ∧ e.checkTrc d ≠ .ok true ∧
      (e.checkPrm d = .ub ↔ e.desc = d ∧ e.block = none) ∧ (e.checkTrc d = .ub ↔ e.desc = d ∧ e.block = none) := by
  unfold CElem.checkPrm CElem.checkTrc
  by_cases h : e.desc = d
  · cases hb : e.block <;> simp [h]
  · simp [h]

/-- **C72 is false for the checks.** Whatever calls were made, `checkPrm` and `checkTrc` say that nothing is held: also for
files whose parameters the cache holds; and `getOutputTrace` gives no positions. -/
theorem C72_check_refuted (load : R → List D → α) (pick : CElem D R α S → List Nat) (calls : List (CCall D R))
    (c : List (CElem D R α S)) (hc : cacheAfter load [] calls = .ok c) (d : List D) :
    checkPrm d c = .ok false ∧ checkTrc d c = .ok false ∧ getOutputTrace pick d c = .ok [] := by
  have h := holds_calls load calls c hc
  have hb : ∀ e ∈ c, e.block ≠ none := by
    intro e he hb
    have h1 := holds_at load calls c hc e.desc
    have key : ∀ (l : List (CElem D R α S)), (l.map CElem.desc).Nodup → e ∈ l → elemOf e.desc l = some e := by
      intro l
      induction l with
      | nil => intro _ h; cases h
      | cons x l ih =>
        intro hn hm
        simp only [List.map_cons, List.nodup_cons] at hn
        unfold elemOf at ih ⊢
        rcases List.mem_cons.1 hm with h' | h'
        · subst h'; simp
        · have : ¬ x.desc = e.desc := fun hx => hn.1 (by rw [hx]; exact List.mem_map_of_mem h')
          rw [List.find?_cons, show decide (x.desc = e.desc) = false by simpa using this]
          exact ih hn.2 h'
    rw [key c h.2 he] at h1
    cases hf : firstRule e.desc calls with
    | none => rw [hf] at h1; cases h1
    | some r =>
      rw [hf] at h1
      simp only [Option.map_some, Option.some.injEq] at h1
      rw [h1] at hb; cases hb
  have hp : ∀ (p : CElem D R α S → Res Bool) (l : List (CElem D R α S)), (∀ e ∈ l, p e = .ok false) →
      findRes p l = .ok none := by
    intro p l
    induction l with
    | nil => intro _; rfl
    | cons x l ih =>
      intro hl
      unfold findRes
      rw [hl x List.mem_cons_self, Res.ok_bind, if_neg (by decide)]
      exact ih fun e he => hl e (List.mem_cons_of_mem _ he)
  have hP : findRes (fun e => e.checkPrm d) c = .ok none := by
    refine hp _ c fun e he => ?_
    unfold CElem.checkPrm
    split
    · cases hb' : e.block with
      | none => exact absurd hb' (hb e he)
      | some b => rfl
    · rfl
  have hT : findRes (fun e => e.checkTrc d) c = .ok none := by
    refine hp _ c fun e he => ?_
    unfold CElem.checkTrc
    split
    · cases hb' : e.block with
      | none => exact absurd hb' (hb e he)
      | some b => rfl
    · rfl
  refine ⟨?_, ?_, ?_⟩
  · unfold checkPrm; rw [hP]; rfl
  · unfold checkTrc; rw [hT]; rfl
  · unfold getOutputTrace; rw [hP]; rfl

/-- The cache holds the parameters of the files asked about. -/
example : ∃ c : List (CElem Nat Nat (List Nat) Int), cacheAfter (fun r d => d.map (· + r)) [] [.prm 10 [1, 2]] = .ok c ∧
    elemOf [1, 2] c = some ⟨[1, 2], some ⟨some (10, [11, 12]), []⟩⟩ ∧ checkPrm [1, 2] c = .ok false := ⟨_, rfl, rfl, rfl⟩

/-- **C72 is false for traces.** Whatever calls were made, `cacheTrc` has undefined behaviour, or gives a block without a
single sample, without having read anything. -/
theorem C72_traces_refuted (load : R → List D → α) (calls : List (CCall D R)) (c : List (CElem D R α S)) (d : List D)
    (hc : cacheAfter load [] calls = .ok c) :
    (firstRule d calls = none → cacheTrc load d c = .ub) ∧
    (firstRule d calls ≠ none → ∃ g : Got D R α S, cacheTrc load d c = .ok g ∧ g.block.trc = [] ∧ g.io = false) := by
  have hd1 := holds_at load calls c hc d
  constructor
  · intro hn
    rw [hn] at hd1
    exact getCache_norule load d c hd1
  · intro hn
    cases hf : firstRule d calls with
    | none => exact absurd hf hn
    | some r =>
      rw [hf] at hd1
      exact ⟨_, getCache_found load none d _ _ rfl c _ hd1 rfl, rfl, rfl⟩

/-- **C72 is false for dropping.** Dropping files the cache does not hold is undefined behaviour. -/
theorem C72_flush_refuted (load : R → List D → α) (calls : List (CCall D R)) (c : List (CElem D R α S)) (d : List D)
    (hc : cacheAfter load [] calls = .ok c) (hn : firstRule d calls = none) : Flow.flush d c = .ub := by
  have hd1 := holds_at load calls c hc d
  rw [hn] at hd1
  exact flush_absent d c hd1

/-- Files dropped twice. -/
example : cacheAfter (S := Int) (fun r d => d.map (· + r)) [] [.prm 10 [1, 2], .flush [1, 2], .flush [1, 2]] = .ub := rfl

end Verif.Props
