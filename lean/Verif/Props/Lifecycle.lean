import Verif.Ops.Lifecycle

/-!
C49: MPI is started and ended at most once each, in order, and by the library only if it manages MPI.
-/

namespace Verif.Ops

/-- The calls made so far: none, a start, or a start and an end. The newest is first. -/
def Good (p : Prog) : Prop :=
  (∃ rs : List Rec, p.calls = rs ∧ (rs.map Rec.call = [] ∨ rs.map Rec.call = [.init] ∨ rs.map Rec.call = [.finalize, .init])) ∧
  (p.manager = true → p.initialized = true) ∧
  (∀ r ∈ p.calls, r.lib = true → r.mode ≠ .no ∧ (r.call = .finalize → r.mode = .yes))

theorem Good.flags {p : Prog} (h : Good p) :
    (p.calls.map Rec.call = [] ∧ p.initialized = false ∧ p.finalized = false) ∨
    (p.calls.map Rec.call = [.init] ∧ p.initialized = true ∧ p.finalized = false) ∨
    (p.calls.map Rec.call = [.finalize, .init] ∧ p.initialized = true ∧ p.finalized = true) := by
  obtain ⟨⟨rs, h1, h2⟩, _⟩ := h
  have hi : p.initialized = (p.calls.map Rec.call).any fun c => c = .init := by
    unfold Prog.initialized; rw [List.any_map]; rfl
  have hf : p.finalized = (p.calls.map Rec.call).any fun c => c = .finalize := by
    unfold Prog.finalized; rw [List.any_map]; rfl
  rw [hi, hf, h1]
  rcases h2 with h | h | h
  · exact Or.inl ⟨h, by rw [h]; decide, by rw [h]; decide⟩
  · exact Or.inr (Or.inl ⟨h, by rw [h]; decide, by rw [h]; decide⟩)
  · exact Or.inr (Or.inr ⟨h, by rw [h]; decide, by rw [h]; decide⟩)

theorem good_of {p : Prog} (h1 : p.calls.map Rec.call = [] ∨ p.calls.map Rec.call = [.init] ∨
      p.calls.map Rec.call = [.finalize, .init]) (h2 : p.manager = true → p.initialized = true)
    (h3 : ∀ r ∈ p.calls, r.lib = true → r.mode ≠ .no ∧ (r.call = .finalize → r.mode = .yes)) : Good p :=
  ⟨⟨p.calls, rfl, h1⟩, h2, h3⟩

/-- One call of `MPI_Init` in a good state: good again unless refused. -/
theorem init_good {p : Prog} (h : Good p) (lib : Bool) (hl : lib = true → p.initialized = false ∧ p.mode ≠ .no) :
    p.mpiInit lib = .abort ∨ ∃ q, p.mpiInit lib = .ok q ∧ Good q ∧ q.initialized = true ∧ q.finalized = false ∧
      q.mode = p.mode ∧ q.manager = p.manager := by
  unfold Prog.mpiInit
  rcases h.flags with ⟨c, i, f⟩ | ⟨c, i, f⟩ | ⟨c, i, f⟩
  · rw [i]
    refine Or.inr ⟨_, rfl, good_of (Or.inr (Or.inl ?_)) (fun _ => ?_) ?_, ?_, ?_, rfl, rfl⟩
    · simp only [List.map_cons, c]
    · simp [Prog.initialized]
    · intro r hr hlr
      rcases List.mem_cons.1 hr with rfl | hr
      · exact ⟨(hl hlr).2, fun h => nomatch h⟩
      · exact h.2.2 r hr hlr
    · simp [Prog.initialized]
    · unfold Prog.finalized at f ⊢
      simpa using f
  all_goals
    rw [i]
    cases lib with
    | false => exact Or.inl rfl
    | true => have := (hl rfl).1; rw [i] at this; cases this

theorem finalize_good {p : Prog} (h : Good p) (lib : Bool)
    (hl : lib = true → p.initialized = true ∧ p.finalized = false ∧ p.mode = .yes) :
    p.mpiFinalize lib = .abort ∨ ∃ q, p.mpiFinalize lib = .ok q ∧ Good q ∧ q.finalized = true := by
  unfold Prog.mpiFinalize
  rcases h.flags with ⟨c, i, f⟩ | ⟨c, i, f⟩ | ⟨c, i, f⟩
  · rw [i, f]
    cases lib with
    | false => exact Or.inl rfl
    | true => have := (hl rfl).1; rw [i] at this; cases this
  · rw [i, f]
    refine Or.inr ⟨_, rfl, good_of (Or.inr (Or.inr ?_)) (fun _ => ?_) ?_, ?_⟩
    · simp only [List.map_cons, c]
    · unfold Prog.initialized at i ⊢
      rw [List.any_cons, i, Bool.or_true]
    · intro r hr hlr
      rcases List.mem_cons.1 hr with rfl | hr
      · have := (hl hlr).2.2
        exact ⟨by simp [this], fun _ => this⟩
      · exact h.2.2 r hr hlr
    · simp [Prog.finalized]
  · rw [i, f]
    cases lib with
    | false => exact Or.inl rfl
    | true => have := (hl rfl).2.1; rw [f] at this; cases this

theorem construct_good {p : Prog} (h : Good p) : p.construct = .abort ∨ ∃ q, p.construct = .ok q ∧ Good q := by
  unfold Prog.construct
  by_cases hm : p.manager = true
  · rw [if_pos hm, Res.ok_bind]
    simp only
    by_cases hc : (p.initialized && !p.finalized) = true
    · rw [if_pos hc]; exact Or.inr ⟨p, rfl, h⟩
    · rw [if_neg hc]; exact Or.inl rfl
  · rw [if_neg hm]
    unfold Prog.makeManager
    by_cases hn : p.mode = .no
    · rw [if_pos hn, Res.ok_bind]
      simp only
      have hi : ({ p with manager := true } : Prog).initialized = p.initialized := rfl
      have hf : ({ p with manager := true } : Prog).finalized = p.finalized := rfl
      rw [hi, hf]
      by_cases hc : (p.initialized && !p.finalized) = true
      · rw [if_pos hc]
        refine Or.inr ⟨_, rfl, good_of ?_ (fun _ => ?_) h.2.2⟩
        · rcases h.flags with h | h | h
          · exact Or.inl h.1
          · exact Or.inr (Or.inl h.1)
          · exact Or.inr (Or.inr h.1)
        · rw [hi]; simp only [Bool.and_eq_true] at hc; exact hc.1
      · rw [if_neg hc]; exact Or.inl rfl
    · rw [if_neg hn]
      -- any good state with a start: the rest keeps it
      have rest : ∀ (q : Prog) (md : Mode), Good q → q.initialized = true →
          ((do
            let p ← (Res.ok { q with mode := md, manager := true } : Res Prog)
            if p.initialized && !p.finalized then Res.ok p else .abort : Res Prog) = .abort ∨ ∃ r, (do
            let p ← (Res.ok { q with mode := md, manager := true } : Res Prog)
            if p.initialized && !p.finalized then Res.ok p else .abort : Res Prog) = .ok r ∧ Good r) := by
        intro q md hq hqi
        rw [Res.ok_bind]
        by_cases hc : ((({ q with mode := md, manager := true } : Prog).initialized) &&
            !({ q with mode := md, manager := true } : Prog).finalized) = true
        · rw [if_pos hc]
          refine Or.inr ⟨_, rfl, good_of ?_ (fun _ => hqi) hq.2.2⟩
          rcases hq.flags with h | h | h
          · exact Or.inl h.1
          · exact Or.inr (Or.inl h.1)
          · exact Or.inr (Or.inr h.1)
        · rw [if_neg hc]; exact Or.inl rfl
      by_cases hi : p.initialized = true
      · simp only [hi, ↓reduceIte, Res.ok_bind]
        by_cases hu : p.mode = .unset
        · simp only [hu, ↓reduceIte]
          exact rest p .no h hi
        · simp only [hu, ↓reduceIte]
          exact rest p p.mode h hi
      · have hi' : p.initialized = false := by simpa using hi
        simp only [hi', Bool.false_eq_true, ↓reduceIte]
        rcases init_good h true (fun _ => ⟨hi', hn⟩) with ha | ⟨q, hq, hg, hgi, _, hqm, _⟩
        · rw [ha]; exact Or.inl rfl
        · rw [hq]
          simp only [Res.ok_bind, hqm]
          by_cases hu : p.mode = .unset
          · simp only [hu, ↓reduceIte]
            exact rest q .yes hg hgi
          · simp only [hu, ↓reduceIte]
            have := rest q q.mode hg hgi
            exact this

theorem run_good (es : List Event) : ∀ p : Prog, Good p → p.run es = .abort ∨ ∃ q, p.run es = .ok q ∧ Good q := by
  induction es with
  | nil =>
    intro p h
    unfold Prog.run Prog.exit
    by_cases hc : (p.manager && decide (p.mode = .yes)) = true
    · rw [if_pos hc]
      simp only [Bool.and_eq_true, decide_eq_true_eq] at hc
      by_cases hf : p.finalized = true
      · rw [if_pos hf]; exact Or.inr ⟨p, rfl, h⟩
      · rw [if_neg hf]
        rcases finalize_good h true (fun _ => ⟨h.2.1 hc.1, by simpa using hf, hc.2⟩) with h' | ⟨q, h1, h2, _⟩
        · exact Or.inl h'
        · exact Or.inr ⟨q, h1, h2⟩
    · rw [if_neg hc]; exact Or.inr ⟨p, rfl, h⟩
  | cons e es ih =>
    intro p h
    unfold Prog.run
    have hs : p.step e = .abort ∨ ∃ q, p.step e = .ok q ∧ Good q := by
      cases e with
      | manage b => exact Or.inr ⟨p.manage b, rfl, h⟩
      | userInit =>
        rcases init_good h false (fun h => nomatch h) with h' | ⟨q, h1, h2, _⟩
        · exact Or.inl h'
        · exact Or.inr ⟨q, h1, h2⟩
      | userFinalize =>
        rcases finalize_good h false (fun h => nomatch h) with h' | ⟨q, h1, h2, _⟩
        · exact Or.inl h'
        · exact Or.inr ⟨q, h1, h2⟩
      | construct => exact construct_good h
    rcases hs with h' | ⟨q, h1, h2⟩
    · rw [h']; exact Or.inl rfl
    · rw [h1, Res.ok_bind]; exact ih q h2

/-- C49. For every sequence of calls (choosing who manages MPI, starting and ending MPI by hand, making communicators)
followed by the end of the program: the library never makes a wrong call of `MPI_Init` or `MPI_Finalize` (a second
time, or ending before starting); a program that is not ended by MPI for a wrong call of its own has started MPI at
most once and ended it at most once, after starting it; and every call the library made was made while it was not told
that the user manages MPI, ending only while told or having decided that it manages MPI itself. -/
theorem C49_once (es : List Event) :
    Prog.start.run es = .abort ∨ ∃ q, Prog.start.run es = .ok q ∧
      (q.calls.reverse.map Rec.call = [] ∨ q.calls.reverse.map Rec.call = [.init] ∨
        q.calls.reverse.map Rec.call = [.init, .finalize]) ∧
      ∀ r ∈ q.calls, r.lib = true → r.mode ≠ .no ∧ (r.call = .finalize → r.mode = .yes) := by
  have h0 : Good Prog.start := good_of (Or.inl rfl) (fun h => nomatch h) (by intro r hr; simp [Prog.start] at hr)
  rcases run_good es Prog.start h0 with h | ⟨q, h1, h2⟩
  · exact Or.inl h
  · refine Or.inr ⟨q, h1, ?_, h2.2.2⟩
    rcases h2.flags with h | h | h
    · exact Or.inl (by rw [List.map_reverse, h.1]; rfl)
    · exact Or.inr (Or.inl (by rw [List.map_reverse, h.1]; rfl))
    · exact Or.inr (Or.inr (by rw [List.map_reverse, h.1]; rfl))

example : Prog.start.run [.construct, .construct, .userFinalize] = .ok ⟨.yes, true, [⟨false, .finalize, .yes⟩, ⟨true, .init, .unset⟩]⟩ := by
  decide

/-- The user started MPI and the library does not manage it. -/
def Users (p : Prog) : Prop := p.mode ≠ .yes ∧ p.initialized = true ∧ ∀ r ∈ p.calls, r.lib = false

theorem users_run (es : List Event) (h : ∀ e ∈ es, e ≠ .manage true) : ∀ p q : Prog, Users p → p.run es = .ok q →
    ∀ r ∈ q.calls, r.lib = false := by
  induction es with
  | nil =>
    intro p q hu hr
    unfold Prog.run Prog.exit at hr
    simp only [hu.1, decide_false, Bool.and_false, Bool.false_eq_true, ↓reduceIte, Res.ok.injEq] at hr
    rw [← hr]; exact hu.2.2
  | cons e es ih =>
    intro p q hu hr
    unfold Prog.run at hr
    have ih := ih (fun e he => h e (by simp [he]))
    have hstep : p.step e = .abort ∨ ∃ p', p.step e = .ok p' ∧ Users p' := by
      cases e with
      | manage b =>
        cases b with
        | true => exact absurd rfl (h _ (by simp))
        | false => exact Or.inr ⟨p.manage false, rfl, by simp [Prog.manage], hu.2.1, hu.2.2⟩
      | userInit => exact Or.inl (by simp [Prog.step, Prog.mpiInit, hu.2.1])
      | userFinalize =>
        by_cases hf : p.finalized = true
        · exact Or.inl (by simp [Prog.step, Prog.mpiFinalize, hf])
        · refine Or.inr ⟨{ p with calls := ⟨false, .finalize, p.mode⟩ :: p.calls },
            by simp [Prog.step, Prog.mpiFinalize, hu.2.1, hf], hu.1, ?_, ?_⟩
          · have := hu.2.1
            unfold Prog.initialized at this ⊢
            rw [List.any_cons, this, Bool.or_true]
          · intro r hr'
            rcases List.mem_cons.1 hr' with rfl | hr'
            · rfl
            · exact hu.2.2 r hr'
      | construct =>
        have hfin : ∀ p' : Prog, Users p' → ((if p'.initialized && !p'.finalized then Res.ok p' else .abort) = .abort ∨
            ∃ p'', (if p'.initialized && !p'.finalized then Res.ok p' else .abort) = .ok p'' ∧ Users p'') := by
          intro p' hp'
          by_cases hc : (p'.initialized && !p'.finalized) = true
          · rw [if_pos hc]; exact Or.inr ⟨p', rfl, hp'⟩
          · rw [if_neg hc]; exact Or.inl rfl
        unfold Prog.step Prog.construct
        by_cases hm : p.manager = true
        · simp only [hm, ↓reduceIte, Res.ok_bind]
          exact hfin p hu
        · simp only [hm, Bool.false_eq_true, ↓reduceIte]
          unfold Prog.makeManager
          by_cases hn : p.mode = .no
          · simp only [hn, ↓reduceIte, Res.ok_bind]
            exact hfin { p with mode := .no, manager := true } ⟨by simp, hu.2.1, hu.2.2⟩
          · have hun : p.mode = .unset := by
              have := hu.1
              cases hmd : p.mode with
              | unset => rfl
              | yes => exact absurd hmd this
              | no => exact absurd hmd hn
            simp only [hun, hu.2.1, reduceCtorEq, ↓reduceIte, Res.ok_bind]
            exact hfin { p with mode := .no, manager := true } ⟨by simp, hu.2.1, hu.2.2⟩
    rcases hstep with h' | ⟨p', h1, h2⟩
    · rw [h'] at hr; cases hr
    · rw [h1, Res.ok_bind] at hr
      exact ih p' q h2 hr

/-- C49, the user manages MPI: if the user starts MPI before the first communicator is made and never hands management
to the library, the library calls neither `MPI_Init` nor `MPI_Finalize`. -/
theorem C49_user (pre es : List Event) (h1 : ∀ e ∈ pre, e ≠ .construct ∧ e ≠ .manage true)
    (h2 : ∀ e ∈ es, e ≠ .manage true) (q : Prog) (hr : Prog.start.run (pre ++ .userInit :: es) = .ok q) :
    ∀ r ∈ q.calls, r.lib = false := by
  have hpre : ∀ (l : List Event), (∀ e ∈ l, e ≠ .construct ∧ e ≠ .manage true) → ∀ p : Prog, p.mode ≠ .yes →
      (∀ r ∈ p.calls, r.lib = false) → p.run (l ++ .userInit :: es) = .ok q → ∀ r ∈ q.calls, r.lib = false := by
    intro l
    induction l with
    | nil =>
      intro _ p hm hc hr
      rw [List.nil_append] at hr
      unfold Prog.run at hr
      simp only [Prog.step, Prog.mpiInit] at hr
      split at hr
      · cases hr
      · rw [Res.ok_bind] at hr
        refine users_run es h2 { p with calls := ⟨false, .init, p.mode⟩ :: p.calls } q
          ⟨hm, by simp [Prog.initialized], ?_⟩ hr
        intro r hr'
        rcases List.mem_cons.1 hr' with rfl | hr'
        · rfl
        · exact hc r hr'
    | cons e l ih =>
      intro h p hm hc hr
      obtain ⟨he1, he2⟩ := h e (by simp)
      have ih := ih (fun e he => h e (by simp [he]))
      rw [List.cons_append] at hr
      unfold Prog.run at hr
      cases e with
      | construct => exact absurd rfl he1
      | manage b =>
        cases b with
        | true => exact absurd rfl he2
        | false => exact ih (p.manage false) (by simp [Prog.manage]) hc hr
      | userInit =>
        simp only [Prog.step, Prog.mpiInit] at hr
        split at hr
        · cases hr
        · rw [Res.ok_bind] at hr
          refine ih { p with calls := ⟨false, .init, p.mode⟩ :: p.calls } hm ?_ hr
          intro r hr'
          rcases List.mem_cons.1 hr' with rfl | hr'
          · rfl
          · exact hc r hr'
      | userFinalize =>
        simp only [Prog.step, Prog.mpiFinalize] at hr
        split at hr
        · rw [Res.ok_bind] at hr
          refine ih { p with calls := ⟨false, .finalize, p.mode⟩ :: p.calls } hm ?_ hr
          intro r hr'
          rcases List.mem_cons.1 hr' with rfl | hr'
          · rfl
          · exact hc r hr'
        · cases hr
  exact hpre pre h1 Prog.start (by decide) (by intro r hr; simp [Prog.start] at hr) hr

example : Prog.start.run ([.manage false] ++ .userInit :: [.construct, .manage false, .userFinalize]) =
    .ok ⟨.no, true, [⟨false, .finalize, .no⟩, ⟨false, .init, .no⟩]⟩ := by decide

/-- C49, the library manages MPI: a program that only makes communicators, at least one, has MPI started by the first
and ended at the end of the program. -/
theorem C49_library (n : Nat) : Prog.start.run (List.replicate (n + 1) .construct) =
    .ok ⟨.yes, true, [⟨true, .finalize, .yes⟩, ⟨true, .init, .unset⟩]⟩ := by
  have h : ∀ n : Nat, (⟨.yes, true, [⟨true, .init, .unset⟩]⟩ : Prog).run (List.replicate n .construct) =
      .ok ⟨.yes, true, [⟨true, .finalize, .yes⟩, ⟨true, .init, .unset⟩]⟩ := by
    intro n
    induction n with
    | zero => decide
    | succ n ih =>
      rw [List.replicate_succ]
      unfold Prog.run
      have : (⟨.yes, true, [⟨true, .init, .unset⟩]⟩ : Prog).step .construct = .ok ⟨.yes, true, [⟨true, .init, .unset⟩]⟩ := by
        decide
      rw [this, Res.ok_bind]
      exact ih
  rw [List.replicate_succ]
  unfold Prog.run
  have : Prog.start.step .construct = .ok ⟨.yes, true, [⟨true, .init, .unset⟩]⟩ := by decide
  rw [this, Res.ok_bind]
  exact h n

end Verif.Ops
