import Verif.Flow.Pipeline

/-!
C33 (every operation once, in order) and C34 (names returned) for the queue of a set.
-/

namespace Verif.Flow

variable {T : Type}

/-- The result of a list of operations, each applied once in order to the whole list of traces: a sort orders the
traces by key, equal keys in their order; a gather operation treats each gather (consecutive traces, lengths
`sizes`) by itself; a single-trace operation treats each trace. -/
def applied (sizes : List T → List Nat) : List (Op T) → List T → List T
  | [], ts => ts
  | .sort key :: rest, ts => applied sizes rest (ts.insertionSort fun a b => key a ≤ key b)
  | .gather g :: rest, ts => applied sizes rest ((cut (sizes ts) ts).flatMap g)
  | .single f :: rest, ts => applied sizes rest (ts.map f)
where
  cut : List Nat → List T → List (List T)
    | [], _ => []
    | n :: ns, ts => ts.take n :: cut ns (ts.drop n)

theorem written_map {U : Type} (f : T → U) (pos : List Nat) (ts : List T) :
    written pos (ts.map f) = (written pos ts).map f := by
  unfold written
  have h : pos.zip (ts.map f) = (pos.zip ts).map (Prod.map id f) := by
    rw [List.zip_map_right]
  rw [h, List.map_map]
  have : ∀ l : List (Nat × T), (l.map (Prod.map id f)).insertionSort (fun a b => a.1 ≤ b.1)
      = (l.insertionSort fun a b => a.1 ≤ b.1).map (Prod.map id f) := by
    intro l
    exact (List.map_insertionSort (r := fun a b : Nat × T => a.1 ≤ b.1) (s := fun a b : Nat × U => a.1 ≤ b.1)
      (Prod.map id f) l (fun a _ b _ => by simp)).symm
  rw [this, List.map_map]
  rfl

theorem written_perm (pos : List Nat) (ts : List T) (h : pos.length = ts.length) : (written pos ts).Perm ts := by
  unfold written
  have h1 := (List.perm_insertionSort (fun a b : Nat × T => a.1 ≤ b.1) (pos.zip ts)).map Prod.snd
  rwa [List.map_snd_zip (by omega)] at h1

theorem written_range (ts : List T) (pos : List Nat) (hp : pos.Pairwise (· < ·)) (h : pos.length = ts.length) :
    written pos ts = ts := by
  unfold written
  have hs : (pos.zip ts).Pairwise fun a b => a.1 ≤ b.1 := by
    have : ((pos.zip ts).map Prod.fst).Pairwise (· < ·) := by rwa [List.map_fst_zip (by omega)]
    exact (List.pairwise_map.1 this).imp fun h => by omega
  rw [hs.insertionSort_eq, List.map_snd_zip (by omega)]

theorem localNumbers_length (n : Nat) (files : List (List T)) : ∀ c, (localNumbers n c files).length = files.flatten.length := by
  induction files with
  | nil => intro c; rfl
  | cons f fs ih => intro c; simp [localNumbers, ih]

theorem fresh_one (ts : List T) : fresh [ts] = ⟨ts, List.range ts.length, List.range ts.length, false⟩ := by
  simp [fresh, localNumbers]

theorem ranks_length (key : T → Nat) (ltn : List Nat) (ts : List T) (h : ltn.length = ts.length) :
    (ranks key ltn ts).length = ts.length := by simp [ranks, h]

/-- Position of a trace before another one in the order (key, place) is smaller. -/
theorem rank_lt (key : T → Nat) (l : List (T × Nat)) (p q : T × Nat) (hq : q ∈ l)
    (h : key q.1 < key p.1 ∨ (key q.1 = key p.1 ∧ q.2 < p.2)) :
    (l.countP fun x => key x.1 < key q.1 || (key x.1 == key q.1 && x.2 < q.2))
      < l.countP fun x => key x.1 < key p.1 || (key x.1 == key p.1 && x.2 < p.2) := by
  have hle : ∀ l' : List (T × Nat), (l'.countP fun x => key x.1 < key q.1 || (key x.1 == key q.1 && x.2 < q.2))
      ≤ l'.countP fun x => key x.1 < key p.1 || (key x.1 == key p.1 && x.2 < p.2) := by
    intro l'
    apply List.countP_mono_left
    intro x _ hx
    simp only [Bool.or_eq_true, decide_eq_true_eq, Bool.and_eq_true, beq_iff_eq] at hx ⊢
    omega
  obtain ⟨a, b, rfl⟩ := List.append_of_mem hq
  rw [List.countP_append, List.countP_append, List.countP_cons, List.countP_cons]
  have h1 := hle a
  have h2 := hle b
  have h3 : (decide (key q.1 < key q.1) || (key q.1 == key q.1 && decide (q.2 < q.2))) = false := by simp
  have h4 : (decide (key q.1 < key p.1) || (key q.1 == key p.1 && decide (q.2 < p.2))) = true := by
    simp only [Bool.or_eq_true, decide_eq_true_eq, Bool.and_eq_true, beq_iff_eq]
    exact h
  rw [h3, h4]
  simp only [Bool.false_eq_true, ↓reduceIte]
  omega

/-- The number of traces that go before. -/
def rk (key : T → Nat) (l : List (T × Nat)) (p : T × Nat) : Nat :=
  l.countP fun q => key q.1 < key p.1 || (key q.1 == key p.1 && q.2 < p.2)

theorem written_rk (key : T → Nat) (ltn : List Nat) (ts : List T) (hl : ltn.length = ts.length) :
    written (ranks key ltn ts) ts
      = ((ts.zip ltn).insertionSort fun a b => rk key (ts.zip ltn) a ≤ rk key (ts.zip ltn) b).map Prod.fst := by
  have hz : (ranks key ltn ts).zip ts = (ts.zip ltn).map fun p => (rk key (ts.zip ltn) p, p.1) := by
    have h0 : ts = (ts.zip ltn).map Prod.fst := (List.map_fst_zip (by omega)).symm
    conv => lhs; arg 2; rw [h0]
    unfold ranks
    rw [List.zip_map]
    have hself : ∀ l : List (T × Nat), l.zip l = l.map fun p => (p, p) := by
      intro l
      induction l with
      | nil => rfl
      | cons a l ih => simp [ih]
    rw [hself, List.map_map]
    rfl
  unfold written
  rw [hz]
  rw [← List.map_insertionSort (r := fun a b : T × Nat => rk key (ts.zip ltn) a ≤ rk key (ts.zip ltn) b)
    (s := fun a b : Nat × T => a.1 ≤ b.1) (fun p => (rk key (ts.zip ltn) p, p.1)) (ts.zip ltn) (fun a _ b _ => Iff.rfl),
    List.map_map]
  rfl

/-- Written at its ranks a set of traces is in the order by key. -/
theorem written_sorted (key : T → Nat) (ltn : List Nat) (ts : List T) (hl : ltn.length = ts.length) :
    (written (ranks key ltn ts) ts).Pairwise fun a b => key a ≤ key b := by
  rw [written_rk key ltn ts hl, List.pairwise_map]
  have hp := List.perm_insertionSort (fun a b => rk key (ts.zip ltn) a ≤ rk key (ts.zip ltn) b) (ts.zip ltn)
  refine List.Pairwise.imp_of_mem ?_
    (List.pairwise_insertionSort (fun a b => rk key (ts.zip ltn) a ≤ rk key (ts.zip ltn) b) (ts.zip ltn))
  intro a b _ hb hab
  by_contra hc
  have : rk key (ts.zip ltn) b < rk key (ts.zip ltn) a := rank_lt key _ a b (hp.mem_iff.1 hb) (Or.inl (by omega))
  omega

/-- A key without ties decides the order. -/
theorem written_inj (key : T → Nat) (ltn : List Nat) (ts : List T) (hl : ltn.length = ts.length)
    (hk : ∀ a ∈ ts, ∀ b ∈ ts, key a = key b → a = b) :
    written (ranks key ltn ts) ts = ts.insertionSort fun a b => key a ≤ key b := by
  have p1 := written_perm (ranks key ltn ts) ts (ranks_length key ltn ts hl)
  have p2 := List.perm_insertionSort (fun a b => key a ≤ key b) ts
  refine List.Perm.eq_of_pairwise ?_ (written_sorted key ltn ts hl)
    (List.pairwise_insertionSort (fun a b => key a ≤ key b) ts) (p1.trans p2.symm)
  intro a b ha hb hab hba
  exact hk a (p1.mem_iff.1 ha) b (p2.mem_iff.1 hb) (by omega)

/-- Writing every trace of one file at its rank gives the stable order by key. -/
theorem written_ranks (key : T → Nat) (ts : List T) :
    written (ranks key (List.range ts.length) ts) ts = ts.insertionSort fun a b => key a ≤ key b := by
  let lt : T × Nat → T × Nat → Bool := fun x p => key x.1 < key p.1 || (key x.1 == key p.1 && x.2 < p.2)
  let rk : T × Nat → Nat := fun p => ts.zipIdx.countP fun x => lt x p
  -- both sides come from sorting the pairs (trace, place)
  have hzi : ts.zip (List.range ts.length) = ts.zipIdx := by
    rw [List.zipIdx_eq_zip_range', List.range_eq_range']
  have h1 : written (ranks key (List.range ts.length) ts) ts
      = (ts.zipIdx.insertionSort fun a b => rk a ≤ rk b).map Prod.fst := by
    rw [written_rk key _ ts (by simp), hzi]
    rfl
  have h2 : (ts.insertionSort fun a b => key a ≤ key b)
      = (ts.zipIdx.insertionSort fun a b => key a.1 ≤ key b.1).map Prod.fst := by
    conv => lhs; rw [← List.zipIdx_map_fst 0 ts]
    exact (List.map_insertionSort (r := fun a b : T × Nat => key a.1 ≤ key b.1) (s := fun a b : T => key a ≤ key b)
      Prod.fst ts.zipIdx (fun a _ b _ => Iff.rfl)).symm
  rw [h1, h2]
  congr 1
  -- both are sorted by (key, place)
  have hnd : (ts.zipIdx.map Prod.snd).Pairwise (· < ·) := by
    rw [List.zipIdx_map_snd]
    exact List.pairwise_lt_range'
  have hinj : ∀ a ∈ ts.zipIdx, ∀ b ∈ ts.zipIdx, a.2 = b.2 → a = b := by
    intro a ha b hb hab
    have ha' := List.mem_zipIdx' ha
    have hb' := List.mem_zipIdx' hb
    refine Prod.ext ?_ hab
    rw [ha'.2, hb'.2]
    simp only [hab]
  have hp1 := List.perm_insertionSort (fun a b : T × Nat => rk a ≤ rk b) ts.zipIdx
  have hp2 := List.perm_insertionSort (fun a b : T × Nat => key a.1 ≤ key b.1) ts.zipIdx
  have s1 : (ts.zipIdx.insertionSort fun a b => rk a ≤ rk b).Pairwise fun a b => lt b a = false := by
    have : (ts.zipIdx.insertionSort fun a b => rk a ≤ rk b).Pairwise fun a b => rk a ≤ rk b :=
      List.pairwise_insertionSort (fun a b : T × Nat => rk a ≤ rk b) ts.zipIdx
    refine List.Pairwise.imp_of_mem ?_ this
    intro a b _ hb hab
    rw [Bool.eq_false_iff]
    intro hlt
    have := rank_lt key ts.zipIdx a b (hp1.mem_iff.1 hb) (by
      simpa only [lt, Bool.or_eq_true, decide_eq_true_eq, Bool.and_eq_true, beq_iff_eq] using hlt)
    have h' : rk b < rk a := this
    omega
  have s2 : (ts.zipIdx.insertionSort fun a b => key a.1 ≤ key b.1).Pairwise fun a b => lt b a = false := by
    have hst : ∀ l : List (T × Nat), (l.map Prod.snd).Pairwise (· < ·) →
        (l.insertionSort fun a b => key a.1 ≤ key b.1).Pairwise fun a b => lt b a = false := by
      intro l
      induction l with
      | nil => intro _; simp
      | cons x l ih =>
        intro hl
        rw [List.map_cons, List.pairwise_cons] at hl
        replace ih := ih hl.2
        rw [List.insertionSort_cons]
        have hx : ∀ y ∈ l.insertionSort (fun a b => key a.1 ≤ key b.1), x.2 < y.2 := by
          intro y hy
          exact hl.1 _ (List.mem_map_of_mem ((List.perm_insertionSort _ l).mem_iff.1 hy))
        generalize l.insertionSort (fun a b => key a.1 ≤ key b.1) = s at *
        induction s with
        | nil => simp
        | cons y s ih2 =>
          rw [List.orderedInsert_cons]
          have ih' := List.pairwise_cons.1 ih
          split
          · rename_i hxy
            refine List.pairwise_cons.2 ⟨?_, ih⟩
            intro z hz
            have hz2 := hx z hz
            have hkey : key x.1 ≤ key z.1 := by
              rcases List.mem_cons.1 hz with rfl | hz
              · exact hxy
              · have h := ih'.1 z hz
                simp only [lt, Bool.or_eq_false_iff, decide_eq_false_iff_not] at h
                omega
            simp only [lt, Bool.or_eq_false_iff, decide_eq_false_iff_not, Bool.and_eq_false_iff, beq_eq_false_iff_ne]
            omega
          · rename_i hxy
            refine List.pairwise_cons.2 ⟨?_, ih2 ih'.2 (fun z hz => hx z (by simp [hz]))⟩
            intro z hz
            rcases (List.mem_orderedInsert _).1 hz with rfl | hz
            · simp only [lt, Bool.or_eq_false_iff, decide_eq_false_iff_not, Bool.and_eq_false_iff, beq_eq_false_iff_ne]
              omega
            · exact ih'.1 z hz
    exact hst _ hnd
  refine List.Perm.eq_of_pairwise ?_ s1 s2 (hp1.trans hp2.symm)
  intro a b ha hb hab hba
  have ha := hp1.mem_iff.1 ha
  have hb := hp2.mem_iff.1 hb
  apply hinj a ha b hb
  simp only [lt, Bool.or_eq_false_iff, decide_eq_false_iff_not, Bool.and_eq_false_iff, beq_eq_false_iff_ne] at hab hba
  omega

/-- The functions of a list of single-trace operations, one after the other. -/
def through : List (T → T) → T → T
  | [], t => t
  | f :: fs, t => through fs (f t)

theorem blockSingle_eq (fs : List (T → T)) (ts : List T) :
    blockSingle (fs.map Op.single) ts = ts.map (through fs) := by
  induction fs generalizing ts with
  | nil => simp [blockSingle, through]
  | cons f fs ih =>
    simp only [List.map_cons, blockSingle, ih, List.map_map]
    rfl

theorem applied_append (sizes : List T → List Nat) (a b : List (Op T)) (ts : List T) :
    applied sizes (a ++ b) ts = applied sizes b (applied sizes a ts) := by
  induction a generalizing ts with
  | nil => rfl
  | cons o a ih => cases o <;> simp only [List.cons_append, applied, ih]

theorem applied_singles (sizes : List T → List Nat) (fs : List (T → T)) (ts : List T) :
    applied sizes (fs.map Op.single) ts = ts.map (through fs) := by
  induction fs generalizing ts with
  | nil => simp [applied, through]
  | cons f fs ih =>
    simp only [List.map_cons, applied, ih, List.map_map]
    rfl

theorem through_noop (fs : List (T → T)) (t : T) : through (fs ++ [id]) t = through fs t := by
  induction fs generalizing t with
  | nil => rfl
  | cons f fs ih => exact ih (f t)

theorem sortStep_eq (key : T → Nat) (ltn : List Nat) (ts : List T) (hl : ltn.length = ts.length)
    (h : 3 ≤ ts.length ∨ ts = []) : sortStep key ltn ts = .ok (ranks key ltn ts) := by
  unfold sortStep
  rcases h with h | h
  · simp only [show ¬ ts.length < 3 by omega, ↓reduceIte, ranks_length key ltn ts hl, Nat.lt_irrefl]
    rw [← ranks_length key ltn ts hl, List.take_length]
  · subst h; rfl

theorem run_sorts (blank : T) (sizes : List T → List Nat) (keys : List (T → Nat)) (fs : List (T → T)) (b : Bool) (st : St T)
    (hl : st.ltn.length = st.traces.length) (hn : keys = [] ∨ 3 ≤ st.traces.length ∨ st.traces = []) :
    ∃ names, run blank sizes b st (keys.map Op.sort ++ fs.map Op.single ++ [.single id])
      = .ok (names, some (written (match keys.getLast? with | none => st.pos | some k => ranks k st.ltn st.traces)
          (st.traces.map (through fs)))) := by
  have hfs : fs.map Op.single ++ [Op.single id] = (fs ++ [id]).map Op.single := by simp
  induction keys generalizing b st with
  | nil =>
    refine ⟨[()], ?_⟩
    simp only [List.map_nil, List.nil_append, List.getLast?_nil, hfs]
    have hth : through (fs ++ [id]) = through fs := funext (through_noop fs)
    rw [← hth, ← blockSingle_eq]
    cases fs <;> simp [run]
  | cons k keys ih =>
    have hn' : 3 ≤ st.traces.length ∨ st.traces = [] := by simpa using hn
    obtain ⟨names, h⟩ := ih false { st with pos := ranks k st.ltn st.traces } hl (Or.inr hn')
    refine ⟨[], ?_⟩
    simp only [List.map_cons, List.cons_append, run]
    rw [sortStep_eq k _ _ hl hn', Res.ok_bind, h, Res.ok_bind]
    cases keys with
    | nil => simp
    | cons k2 keys =>
      simp only [List.getLast?_cons_cons]
      have : ∃ k', (k2 :: keys).getLast? = some k' := by
        cases hl : (k2 :: keys).getLast? with
        | none => simp at hl
        | some k' => exact ⟨k', rfl⟩
      obtain ⟨k', hk'⟩ := this
      rw [hk']

theorem sorts_perm (sizes : List T → List Nat) (keys : List (T → Nat)) (ts : List T) :
    (applied sizes (keys.map Op.sort) ts).Perm ts := by
  induction keys generalizing ts with
  | nil => exact List.Perm.refl _
  | cons k keys ih =>
    simp only [List.map_cons, applied]
    exact (ih _).trans (List.perm_insertionSort _ ts)

/-- C33, kept part: sorts followed by any number of single-trace operations, on one process and one group of files.
The file written is what the operations give, each applied once in order. Of several sorts, and if there are several
files, the last must decide between all traces, and to sort there must be three traces or none. What is missing, each
false: sorting one or two traces (`C33_small_refuted`), two sorts with ties (`C33_ties_refuted`), ties between files
(`C33_files_refuted`), a sort after a single-trace
operation (`C33_late_refuted`), anything after a gather operation (`C33_twice_refuted`, `C33_second_refuted`), a sort
before a gather operation on one file (`C33_order_refuted`). -/
theorem C33_sorts_partial (blank : T) (sizes : List T → List Nat) (files : List (List T)) (keys : List (T → Nat))
    (fs : List (T → T)) (hn : keys = [] ∨ 3 ≤ files.flatten.length ∨ files.flatten = [])
    (hk : (keys.length ≤ 1 ∧ files.length ≤ 1) ∨
      ∀ k, keys.getLast? = some k → ∀ a ∈ files.flatten, ∀ b ∈ files.flatten, k a = k b → a = b) :
    ∃ names, output blank sizes (fresh files) (keys.map Op.sort ++ fs.map Op.single)
      = .ok (names, some (applied sizes (keys.map Op.sort ++ fs.map Op.single) files.flatten)) := by
  have hlen : (fresh files).ltn.length = (fresh files).traces.length := localNumbers_length _ files 0
  obtain ⟨names, h⟩ := run_sorts blank sizes keys fs false (fresh files) hlen hn
  refine ⟨names, ?_⟩
  unfold output
  rw [h, applied_append, applied_singles, written_map]
  congr 4
  cases hl : keys.getLast? with
  | none =>
    have : keys = [] := by simpa using hl
    subst this
    simp only [List.map_nil, applied, fresh]
    exact written_range _ _ List.pairwise_lt_range (by simp)
  | some k =>
    simp only
    obtain ⟨init, rfl⟩ : ∃ init, keys = init ++ [k] := by
      have := List.getLast?_eq_some_iff.1 hl
      exact this
    rw [List.map_append, applied_append]
    simp only [List.map_cons, List.map_nil, applied]
    rcases hk with ⟨hk, hf⟩ | hk
    · have : init = [] := by
        have : init.length = 0 := by simpa using hk
        exact List.length_eq_zero_iff.1 this
      subst this
      match files, hf with
      | [], _ => rfl
      | [ts], _ =>
        rw [fresh_one, written_ranks]
        simp [applied]
    · have hk := hk k hl
      rw [written_inj k _ _ hlen hk]
      have hp := sorts_perm sizes init files.flatten
      have p1 := List.perm_insertionSort (fun a b => k a ≤ k b) files.flatten
      have p2 := (List.perm_insertionSort (fun a b => k a ≤ k b) (applied sizes (init.map Op.sort) files.flatten)).trans hp
      refine List.Perm.eq_of_pairwise ?_
        (List.pairwise_insertionSort (fun a b => k a ≤ k b) _)
        (List.pairwise_insertionSort (fun a b => k a ≤ k b) _) (p1.trans p2.symm)
      intro a b ha hb hab hba
      exact hk a (p1.mem_iff.1 ha) b (p2.mem_iff.1 hb) (by omega)

/-- The hypothesis for two files and two sorts, the second by a key without ties. -/
example : ([fun x : Nat => x / 2, fun x => x].length ≤ 1 ∧ [[5, 4], [8]].length ≤ 1) ∨
    ∀ k, [fun x : Nat => x / 2, fun x => x].getLast? = some k →
      ∀ a ∈ [[5, 4], [8]].flatten, ∀ b ∈ [[5, 4], [8]].flatten, k a = k b → a = b := by
  right
  intro k hk
  simp only [List.getLast?_cons_cons, List.getLast?_singleton, Option.some.injEq] at hk
  subst hk
  intro a _ b _ h
  exact h

/-- C33 fails: with several files traces of equal key do not stay in the order of the input, the files take turns. In
general: sorting two files of equal length by a key that does not distinguish any traces interleaves them. -/
theorem C33_files_refuted : (∀ (blank : T) (sizes : List T → List Nat) (l : List (T × T)), 2 ≤ l.length →
    output blank sizes (fresh [l.map Prod.fst, l.map Prod.snd]) [.sort fun _ => 0]
      = .ok ([], some (l.flatMap fun p => [p.1, p.2]))) ∧
    ¬ ∀ (files : List (List Nat)) (k : Nat → Nat) (names : List Unit) (file : List Nat),
      output 0 (fun l => [l.length]) (fresh files) [.sort k] = .ok (names, some file) →
      file = applied (fun l => [l.length]) [.sort k] files.flatten := by
  refine ⟨?_, ?_⟩
  · intro blank sizes l h2
    have hlen := localNumbers_length 2 [l.map Prod.fst, l.map Prod.snd] 0
    have hn : localNumbers 2 0 [l.map Prod.fst, l.map Prod.snd]
        = (List.range l.length).map (fun i => i * 2 + 0) ++ (List.range l.length).map (fun i => i * 2 + 1) := by
      simp [localNumbers]
    have hperm : (localNumbers 2 0 [l.map Prod.fst, l.map Prod.snd]).Perm (List.range (2 * l.length)) := by
      rw [hn]
      clear hn hlen h2
      induction l.length with
      | zero => simp
      | succ n ih =>
        rw [List.range_succ, List.map_append, List.map_append, show 2 * (n + 1) = 2 * n + 1 + 1 by omega,
          List.range_succ, List.range_succ]
        simp only [List.map_cons, List.map_nil]
        rw [show n * 2 + 0 = 2 * n by omega, show n * 2 + 1 = 2 * n + 1 by omega]
        have : ∀ (a b : List Nat) (x y : Nat), ((a ++ [x]) ++ (b ++ [y])).Perm (((a ++ b) ++ [x]) ++ [y]) := by
          intro a b x y
          rw [← List.append_assoc, List.append_assoc a]
          refine List.Perm.append_right _ ?_
          rw [List.append_assoc a b]
          exact List.Perm.append_left _ List.perm_append_comm
        exact (this _ _ _ _).trans ((ih.append_right _).append_right _)
    generalize hL : localNumbers 2 0 [l.map Prod.fst, l.map Prod.snd] = ltn at *
    have hr : ranks (fun _ : T => 0) ltn [l.map Prod.fst, l.map Prod.snd].flatten = ltn := by
      unfold ranks
      have hc : ∀ k ∈ ltn, (([l.map Prod.fst, l.map Prod.snd].flatten.zip ltn).countP fun q => q.2 < k) = k := by
        intro k hk
        have h1 : (([l.map Prod.fst, l.map Prod.snd].flatten.zip ltn).countP fun q => q.2 < k)
            = ((([l.map Prod.fst, l.map Prod.snd].flatten.zip ltn).map Prod.snd).countP fun q => q < k) := by
          rw [List.countP_map]; rfl
        rw [h1, List.map_snd_zip (by omega), hperm.countP_eq]
        have hk' := List.mem_range.1 (hperm.mem_iff.1 hk)
        rw [show 2 * l.length = k + (2 * l.length - k) by omega, List.range_add, List.countP_append,
          List.countP_eq_length.2 (by simp), List.countP_eq_zero.2 (by simp)]
        simp
      calc _ = ([l.map Prod.fst, l.map Prod.snd].flatten.zip ltn).map Prod.snd := by
              apply List.map_congr_left
              intro p hp
              refine Eq.trans ?_ (hc p.2 (List.of_mem_zip hp).2)
              simp
        _ = ltn := List.map_snd_zip (by omega)
    have hst : fresh [l.map Prod.fst, l.map Prod.snd]
        = ⟨[l.map Prod.fst, l.map Prod.snd].flatten, ltn, List.range [l.map Prod.fst, l.map Prod.snd].flatten.length, true⟩ := by
      unfold fresh
      rw [← hL]
      rfl
    unfold output
    rw [hst]
    simp only [List.cons_append, List.nil_append, run]
    rw [sortStep_eq _ _ _ hlen (Or.inl (by simp; omega)), hr]
    simp only [Res.ok_bind, blockSingle, List.map_id]
    congr 3
    unfold written
    have hfl : [l.map Prod.fst, l.map Prod.snd].flatten = l.map Prod.fst ++ l.map Prod.snd := by simp
    rw [hfl, hn]
    clear hfl hst hr hperm hlen hn hL h2 ltn
    -- the pairs (place, trace) in order
    have hzip : ∀ (f : T × T → T) (c : Nat), ((List.range l.length).map (fun i => i * 2 + c)).zip (l.map f)
        = l.zipIdx.map fun p => (p.2 * 2 + c, f p.1) := by
      intro f c
      rw [List.zipIdx_eq_zip_range', ← List.range_eq_range', List.zip_map]
      have : ∀ (a : List Nat) (b : List (T × T)), (a.zip b).map (Prod.map (fun i => i * 2 + c) f)
          = (b.zip a).map fun p => (p.2 * 2 + c, f p.1) := by
        intro a
        induction a with
        | nil => intro b; simp
        | cons x a ih => intro b; cases b <;> simp_all
      exact this _ _
    rw [List.zip_append (by simp), hzip, hzip]
    have hp : (l.zipIdx.map (fun p : (T × T) × Nat => (p.2 * 2 + 0, p.1.1)) ++ l.zipIdx.map (fun p : (T × T) × Nat => (p.2 * 2 + 1, p.1.2))).Perm
        (l.zipIdx.flatMap fun p : (T × T) × Nat => [(p.2 * 2 + 0, p.1.1), (p.2 * 2 + 1, p.1.2)]) := by
      generalize l.zipIdx = z
      induction z with
      | nil => exact List.Perm.refl _
      | cons a z ih =>
        simp only [List.map_cons, List.flatMap_cons, List.cons_append, List.nil_append]
        refine List.Perm.cons _ ?_
        exact List.perm_middle.trans (List.Perm.cons _ ih)
    have hs : ∀ (l : List (T × T)) (k : Nat), ((l.zipIdx k).flatMap fun p : (T × T) × Nat => [(p.2 * 2 + 0, p.1.1), (p.2 * 2 + 1, p.1.2)]).Pairwise
        (fun a b => a.1 < b.1) ∧ ∀ x ∈ (l.zipIdx k).flatMap fun p : (T × T) × Nat => [(p.2 * 2 + 0, p.1.1), (p.2 * 2 + 1, p.1.2)], k * 2 ≤ x.1 := by
      intro l
      induction l with
      | nil => intro k; simp
      | cons a l ih =>
        intro k
        obtain ⟨i1, i2⟩ := ih (k + 1)
        simp only [List.zipIdx_cons, List.flatMap_cons, List.cons_append, List.nil_append, List.pairwise_cons, List.mem_cons]
        refine ⟨⟨?_, ?_, i1⟩, ?_⟩
        · rintro x (rfl | hx)
          · simp
          · have := i2 x hx; omega
        · intro x hx
          have := i2 x hx; omega
        · rintro x (rfl | rfl | hx)
          · simp
          · simp
          · have := i2 x hx; omega
    have he : ((l.zipIdx.map (fun p : (T × T) × Nat => (p.2 * 2 + 0, p.1.1)) ++ l.zipIdx.map (fun p : (T × T) × Nat => (p.2 * 2 + 1, p.1.2))).insertionSort
        fun a b => a.1 ≤ b.1) = l.zipIdx.flatMap fun p : (T × T) × Nat => [(p.2 * 2 + 0, p.1.1), (p.2 * 2 + 1, p.1.2)] := by
      have p1 := (List.perm_insertionSort (fun a b : Nat × T => a.1 ≤ b.1) _).trans hp
      have hs0 := (hs l 0).1
      refine List.Perm.eq_of_pairwise (le := fun a b : Nat × T => a.1 ≤ b.1) ?_ (List.pairwise_insertionSort _ _)
        (hs0.imp fun h => by omega) p1
      intro a b ha hb hab hba
      have ha := p1.mem_iff.1 ha
      have hnd := List.pairwise_iff_getElem.1 hs0
      obtain ⟨i, hi, rfl⟩ := List.getElem_of_mem ha
      obtain ⟨j, hj, rfl⟩ := List.getElem_of_mem hb
      rcases Nat.lt_trichotomy i j with h | h | h
      · have := hnd i j hi hj h; omega
      · subst h; rfl
      · have := hnd j i hj hi h; omega
    rw [he]
    clear he hs hp hzip
    have : ∀ k, ((l.zipIdx k).flatMap fun p : (T × T) × Nat => [(p.2 * 2 + 0, p.1.1), (p.2 * 2 + 1, p.1.2)]).map Prod.snd
        = l.flatMap fun p => [p.1, p.2] := by
      induction l with
      | nil => intro k; rfl
      | cons a l ih =>
        intro k
        rw [List.zipIdx_cons, List.flatMap_cons, List.map_append, ih, List.flatMap_cons]
        rfl
    exact this 0
  · intro h
    have := h [[1, 2], [3]] (fun _ => 0) [] [1, 3, 2] (by decide +kernel)
    revert this
    decide +kernel

/-- C33 fails: on one process a sort of one or two traces is undefined behaviour, whatever else is queued and however
many files the traces are in: the queued function returns an empty list and the positions are copied from it. -/
theorem C33_small_refuted (blank : T) (sizes : List T → List Nat) (st : St T) (h0 : st.traces ≠ [])
    (h3 : st.traces.length < 3) (key : T → Nat) (ops : List (Op T)) :
    output blank sizes st (.sort key :: ops) = .ub := by
  have hl : 0 < st.traces.length := List.length_pos_iff.2 h0
  have h : sortStep key st.ltn st.traces = .ub := by
    unfold sortStep
    simp only [if_pos h3, List.length_nil, if_pos hl]
  unfold output
  simp only [List.cons_append, run]
  rw [h, Res.ub_bind]

/-- Two traces, already in order. -/
example : output 0 (fun _ => []) (fresh [[1, 2]]) [.sort id] = .ub := by decide +kernel

/-- C34 fails in general: if the first operation queued is a sort, or a gather operation, `output` returns no name,
whatever it writes. -/
theorem C34_forgotten_refuted (blank : T) (sizes : List T → List Nat) (st : St T) (o : Op T) (ops : List (Op T))
    (ho : ∀ f, o ≠ .single f) (names : List Unit) (file : Option (List T))
    (h : output blank sizes st (o :: ops) = .ok (names, file)) : names = [] := by
  unfold output at h
  cases o with
  | single f => exact absurd rfl (ho f)
  | sort k =>
    simp only [List.cons_append, run] at h
    cases hp : sortStep k st.ltn st.traces with
    | ub => rw [hp, Res.ub_bind] at h; cases h
    | abort => rw [hp, Res.abort_bind] at h; cases h
    | ok pos =>
      rw [hp, Res.ok_bind] at h
      cases hr : run blank sizes false { st with pos := pos } (ops ++ [.single id]) with
      | ok r => rw [hr, Res.ok_bind] at h; injection h with h; exact (Prod.mk.inj h).1.symm
      | ub => rw [hr, Res.ub_bind] at h; cases h
      | abort => rw [hr, Res.abort_bind] at h; cases h
  | gather g =>
    have hall : (ops ++ [Op.single id]).all Op.isGather = false := by simp [Op.isGather]
    simp only [List.cons_append, run, hall, Bool.false_eq_true, ↓reduceIte] at h
    cases hs : startGather blank sizes st (.gather g :: (ops ++ [.single id])) with
    | ub => rw [hs, Res.ub_bind] at h; cases h
    | abort => rw [hs, Res.abort_bind] at h; cases h
    | ok out =>
      rw [hs, Res.ok_bind] at h
      cases hr : run blank sizes true (fresh [out]) (ops ++ [.single id]) with
      | ok r => rw [hr, Res.ok_bind] at h; injection h with h; exact (Prod.mk.inj h).1.symm
      | ub => rw [hr, Res.ub_bind] at h; cases h
      | abort => rw [hr, Res.abort_bind] at h; cases h

example : output 0 (fun _ => []) (fresh [[3, 1, 2]]) [.sort id] = .ok ([], some [1, 2, 3]) := by decide +kernel

/-- A block of single-trace operations is named. -/
theorem C34_single_partial (blank : T) (sizes : List T → List Nat) (st : St T) (f : T → T) (ops : List (Op T)) :
    ∃ file, output blank sizes st (.single f :: ops) = .ok ([()], some file) := by
  refine ⟨written st.pos (blockSingle (.single f :: (ops ++ [.single id])) st.traces), ?_⟩
  unfold output
  simp only [List.cons_append, run]

/-- C33 fails: a sort on one file has no effect if a gather operation comes next: the file written is the same as
without the sort. In the concrete case the gather operation keeps the gather as it is. -/
theorem C33_order_refuted (blank : T) (sizes : List T → List Nat) (ts : List T) (key : T → Nat) (g : List T → List T)
    (ops : List (Op T)) (hn : 3 ≤ ts.length ∨ ts = []) :
    output blank sizes (fresh [ts]) (.sort key :: .gather g :: ops)
        = output blank sizes (fresh [ts]) (.gather g :: ops) ∧
      ¬ ∀ (ts : List Nat) (names : List Unit) (file : List Nat),
        output 0 (fun l => [l.length]) (fresh [ts]) [.sort id, .gather id] = .ok (names, some file) →
        file = applied (fun l => [l.length]) [.sort id, .gather id] ts := by
  refine ⟨?_, ?_⟩
  · have hall : (ops ++ [Op.single id]).all Op.isGather = false := by simp [Op.isGather]
    have hsg : ∀ p : List Nat, startGather blank sizes { fresh [ts] with pos := p } (.gather g :: (ops ++ [.single id]))
        = startGather blank sizes (fresh [ts]) (.gather g :: (ops ++ [.single id])) := fun _ => rfl
    unfold output
    simp only [List.cons_append, run, hall, Bool.false_eq_true, ↓reduceIte]
    rw [sortStep_eq key (fresh [ts]).ltn (fresh [ts]).traces (localNumbers_length _ [ts] 0) (by rw [fresh_one]; exact hn), Res.ok_bind, hsg]
    cases startGather blank sizes (fresh [ts]) (.gather g :: (ops ++ [.single id])) with
    | ub => rfl
    | abort => rfl
    | ok out =>
      simp only [Res.ok_bind]
      cases run blank sizes true (fresh [out]) (ops ++ [.single id]) <;> rfl
  · intro h
    have := h [2, 1, 3] [] [2, 1, 3] (by decide +kernel)
    revert this
    decide +kernel

/-- C33 fails: whatever follows a single-trace operation, from the first operation of another kind on, is dropped. -/
theorem C33_late_refuted (blank : T) (sizes : List T → List Nat) (st : St T) (f : T → T) (fs : List (T → T)) (o : Op T)
    (ho : ∀ h, o ≠ .single h) (ops : List (Op T)) :
    output blank sizes st ((f :: fs).map Op.single ++ o :: ops) = output blank sizes st ((f :: fs).map Op.single) ∧
      ¬ ∀ (ts : List Nat) (names : List Unit) (file : List Nat),
        output 0 (fun l => [l.length]) (fresh [ts]) [.single (· + 1), .sort id] = .ok (names, some file) →
        file = applied (fun l => [l.length]) [.single (· + 1), .sort id] ts := by
  refine ⟨?_, ?_⟩
  · have hb : ∀ (fs : List (T → T)) (ts : List T) (rest : List (Op T)),
        blockSingle (fs.map Op.single ++ o :: rest) ts = blockSingle (fs.map Op.single ++ [.single id]) ts := by
      intro fs
      induction fs with
      | nil =>
        intro ts rest
        cases o with
        | single h => exact absurd rfl (ho h)
        | sort k => simp [blockSingle]
        | gather g => simp [blockSingle]
      | cons f fs ih =>
        intro ts rest
        simp only [List.map_cons, List.cons_append, blockSingle]
        exact ih _ _
    unfold output
    simp only [List.map_cons, List.cons_append, run, List.append_assoc]
    have := hb (f :: fs) st.traces (ops ++ [.single id])
    simp only [List.map_cons, List.cons_append] at this
    rw [this]
  · intro h
    have := h [2, 1] [()] [3, 2] (by decide +kernel)
    revert this
    decide +kernel

/-- The operation dropped may be any sort. -/
example : ∀ h, (Op.sort id : Op Nat) ≠ .single h := fun _ h => nomatch h

theorem readBlock_in (blank : T) (ts : List T) (off n : Nat) (h : off + n ≤ ts.length) :
    readBlock blank ts off n = .ok ((ts.drop off).take n) := by
  unfold readBlock
  rw [if_neg (by omega)]
  simp only [List.length_take, List.length_drop]
  rw [Nat.min_eq_left (by omega), Nat.sub_self]
  simp

theorem gatherLoop_one (blank : T) (g : List T → List T) (ts : List T) (ns : List Nat) :
    ∀ off, off + ns.sum ≤ ts.length →
      gatherLoop blank [.gather g, .single id] ts off ns = .ok ((applied.cut ns (ts.drop off)).flatMap g) := by
  induction ns with
  | nil => intro off _; rfl
  | cons n ns ih =>
    intro off h
    rw [List.sum_cons] at h
    unfold gatherLoop
    rw [readBlock_in blank ts off n (by omega), Res.ok_bind]
    simp only [blockGather, blockSingle, List.map_id]
    rw [Res.ok_bind, ih (off + n) (by omega), Res.ok_bind]
    simp [applied.cut, List.drop_drop]

/-- C33 fails: a single-trace operation after a gather operation is applied twice. -/
theorem C33_twice_refuted (blank : T) (sizes : List T → List Nat) (ts : List T) (g : List T → List T) (f : T → T)
    (hs : (sizes ts).sum ≤ ts.length) :
    output blank sizes (fresh [ts]) [.gather g, .single f]
        = .ok ([], some (applied sizes [.gather g, .single f, .single f] ts)) ∧
      ¬ ∀ (ts : List Nat) (names : List Unit) (file : List Nat),
        output 0 (fun l => [l.length]) (fresh [ts]) [.gather id, .single (· + 1)] = .ok (names, some file) →
        file = applied (fun l => [l.length]) [.gather id, .single (· + 1)] ts := by
  refine ⟨?_, ?_⟩
  · have hl : ∀ ns : List Nat, ∀ off, off + ns.sum ≤ ts.length →
        gatherLoop blank [.gather g, .single f, .single id] ts off ns
          = .ok (((applied.cut ns (ts.drop off)).flatMap g).map f) := by
      intro ns
      induction ns with
      | nil => intro off _; rfl
      | cons n ns ih =>
        intro off h
        rw [List.sum_cons] at h
        unfold gatherLoop
        rw [readBlock_in blank ts off n (by omega), Res.ok_bind]
        simp only [blockGather, blockSingle, List.map_id]
        rw [Res.ok_bind, ih (off + n) (by omega), Res.ok_bind]
        simp [applied.cut, List.drop_drop]
    have h1 : startGather blank sizes (fresh [ts]) [.gather g, .single f, .single id]
        = .ok (((applied.cut (sizes ts) ts).flatMap g).map f) := by
      unfold startGather
      simp only [fresh_one, Bool.false_eq_true, ↓reduceIte, gatherCount, Nat.zero_add]
      have := hl (sizes ts) 0 (by omega)
      simpa using this
    unfold output
    simp only [List.cons_append, List.nil_append, run]
    rw [h1, Res.ok_bind]
    have h2 : ([Op.single f, Op.single (T := T) id]).all Op.isGather = false := rfl
    rw [h2]
    simp only [Bool.false_eq_true, ↓reduceIte, Res.ok_bind, blockSingle, List.map_id, fresh_one]
    rw [written_range _ _ List.pairwise_lt_range (by simp)]
    rfl
  · intro h
    have := h [5] [] [7] (by decide +kernel)
    revert this
    decide +kernel

example : ((fun l : List Nat => [1, l.length - 1]) [4, 5, 6]).sum ≤ [4, 5, 6].length := by decide

/-- C33 fails: of two gather operations the second is not applied and a blank gather is written after the first; with
two gathers the file is read beyond its end. -/
theorem C33_second_refuted : (¬ ∀ (ts : List Nat) (g1 g2 : List Nat → List Nat) (names : List Unit) (file : List Nat),
    output 0 (fun l => [l.length]) (fresh [ts]) [.gather g1, .gather g2] = .ok (names, some file) →
    file = applied (fun l => [l.length]) [.gather g1, .gather g2] ts) ∧
    output 0 (fun l => [1, l.length - 1]) (fresh [[4, 5, 6]]) [.gather id, .gather id] = .ub := by
  refine ⟨?_, by decide +kernel⟩
  intro h
  have := h [5] (·.map (· + 1)) (·.map (· * 10)) [] [6, 1] (by decide +kernel)
  revert this
  decide +kernel

/-- C33 for any number of gather operations followed by single-trace operations: what the pass over the gathers writes is
read again, the gather operations are done with, and the single-trace operations are applied to the whole file. (What the
pass itself writes is wrong in general: `C33_twice_refuted`, `C33_again_refuted`.) -/
theorem C33_gathers_partial (blank : T) (sizes : List T → List Nat) (st : St T) (g : List T → List T)
    (gs : List (List T → List T)) (fs : List (T → T)) (out : List T)
    (h : startGather blank sizes st ((g :: gs).map Op.gather ++ fs.map Op.single ++ [.single id]) = .ok out) :
    output blank sizes st ((g :: gs).map Op.gather ++ fs.map Op.single)
      = .ok ([], some (applied sizes (fs.map Op.single) out)) := by
  have hall : (gs.map Op.gather ++ fs.map Op.single ++ [Op.single id]).all Op.isGather = false := by simp [Op.isGather]
  have hskip : ∀ (gs : List (List T → List T)) (st : St T) (rest : List (Op T)),
      run blank sizes true st (gs.map Op.gather ++ rest) = run blank sizes true st rest := by
    intro gs
    induction gs with
    | nil => intro st rest; rfl
    | cons g gs ih => intro st rest; simp only [List.map_cons, List.cons_append, run]; exact ih st rest
  have hb : ∀ (fs : List (T → T)) (ts : List T), blockSingle (fs.map Op.single ++ [.single id]) ts
      = applied sizes (fs.map Op.single) ts := by
    intro fs
    induction fs with
    | nil => intro ts; simp [blockSingle, applied]
    | cons f fs ih => intro ts; simp only [List.map_cons, List.cons_append, blockSingle, applied]; exact ih _
  have hrun : run blank sizes true (fresh [out]) (fs.map Op.single ++ [.single id])
      = .ok ([()], some (applied sizes (fs.map Op.single) out)) := by
    have hw : ∀ ts : List T, ts.length = out.length → written (fresh [out]).pos ts = ts := by
      intro ts hl
      exact written_range ts _ List.pairwise_lt_range (by simp [fresh, hl])
    have hlen : (applied sizes (fs.map Op.single) out).length = out.length := by
      clear h hall
      induction fs generalizing out with
      | nil => rfl
      | cons f fs ih =>
        simp only [List.map_cons, applied]
        rw [ih]
        · simp
        · intro ts hl
          exact written_range ts _ List.pairwise_lt_range (by simp [fresh, hl])
    cases fs with
    | nil =>
      simp only [List.map_nil, List.nil_append, run]
      rw [show blockSingle [Op.single id] (fresh [out]).traces = out by simp [blockSingle, fresh]]
      rw [hw out rfl]
      rfl
    | cons f fs =>
      simp only [List.map_cons, List.cons_append, run]
      have := hb (f :: fs) out
      simp only [List.map_cons, List.cons_append] at this hlen
      rw [show (fresh [out]).traces = out by rw [fresh_one], this, hw _ hlen]
  unfold output
  simp only [List.map_cons, List.cons_append, List.append_assoc] at h hall ⊢
  simp only [run, hall, Bool.false_eq_true, ↓reduceIte]
  rw [h, Res.ok_bind, hskip, hrun]
  rfl

/-- Two gather operations on one gather: the pass over the gathers succeeds (with the wrong contents). -/
example : startGather 0 (fun l => [l.length]) (fresh [[1, 2]])
    (([(· ++ [7]), (· ++ [8])] : List (List Nat → List Nat)).map Op.gather ++ [(· + 1)].map Op.single ++ [.single id])
      = .ok [1, 2, 7, 0, 0, 7] := by
  decide +kernel

theorem blockGather_ok (f : T → T) : ∀ (ops : List (Op T)) (b : List T), ∃ o, blockGather (ops ++ [.single f]) b = .ok o
  | [], b => ⟨b, rfl⟩
  | [.gather _], _ => ⟨_, rfl⟩
  | .gather _ :: .single _ :: _, _ => ⟨_, rfl⟩
  | .gather g :: .gather _ :: ops, b => blockGather_ok f ops (g b)
  | .gather g :: .sort _ :: ops, b => blockGather_ok f ops (g b)
  | .sort _ :: _, _ => ⟨_, rfl⟩
  | .single _ :: _, _ => ⟨_, rfl⟩

/-- C33 fails: with two or more gather operations in a row, every file of at least two gathers is read beyond its end. -/
theorem C33_again_refuted (blank : T) (sizes : List T → List Nat) (ts : List T) (g h : List T → List T) (ops : List (Op T))
    (n m : Nat) (ns : List Nat) (hs : sizes ts = n :: m :: ns) (hn : n ≠ 0) (hm : m ≠ 0) (hsum : (sizes ts).sum = ts.length) :
    output blank sizes (fresh [ts]) (.gather g :: .gather h :: ops) = .ub := by
  have hpass : ∀ (more : List Nat) (ns : List Nat) (off : Nat), off + ns.sum ≤ ts.length →
      ∀ q : List (Op T), (∀ b, ∃ o, blockGather q b = .ok o) →
      gatherLoop blank q ts (off + ns.sum) more = .ub → gatherLoop blank q ts off (ns ++ more) = .ub := by
    intro more ns
    induction ns with
    | nil => intro off _ q _ h; simpa using h
    | cons a ns ih =>
      intro off ho q hq hu
      rw [List.sum_cons] at ho hu
      rw [List.cons_append, gatherLoop]
      obtain ⟨o, e⟩ := hq ((ts.drop off).take a ++ List.replicate (a - ((ts.drop off).take a).length) blank)
      have hr : readBlock blank ts off a
          = .ok ((ts.drop off).take a ++ List.replicate (a - ((ts.drop off).take a).length) blank) := by
        unfold readBlock
        rw [if_neg (by omega)]
      rw [hr, Res.ok_bind, e, Res.ok_bind, ih (off + a) (by omega) q hq (by rw [Nat.add_assoc]; exact hu)]
      rfl
  have hstart : startGather blank sizes (fresh [ts]) (.gather g :: .gather h :: (ops ++ [.single id])) = .ub := by
    unfold startGather
    simp only [fresh_one, Bool.false_eq_true, ↓reduceIte, gatherCount, List.replicate_succ, List.flatten_cons]
    have hq : ∀ b, ∃ o, blockGather (.gather g :: .gather h :: (ops ++ [.single id])) b = .ok o :=
      fun b => blockGather_ok id (.gather g :: .gather h :: ops) b
    refine hpass _ _ 0 (by omega) _ hq ?_
    rw [Nat.zero_add, hsum, hs]
    simp only [List.cons_append, gatherLoop]
    obtain ⟨o, e⟩ := hq ((ts.drop ts.length).take n ++ List.replicate (n - ((ts.drop ts.length).take n).length) blank)
    have hr : readBlock blank ts ts.length n
        = .ok ((ts.drop ts.length).take n ++ List.replicate (n - ((ts.drop ts.length).take n).length) blank) := by
      unfold readBlock
      rw [if_neg (by omega)]
    have hr2 : readBlock blank ts (ts.length + n) m = .ub := by
      unfold readBlock
      rw [if_pos ⟨hm, by omega⟩]
    rw [hr, Res.ok_bind, e, Res.ok_bind, hr2]
    rfl
  unfold output
  simp only [List.cons_append, run]
  rw [hstart]
  rfl

example : (fun l : List Nat => [1, l.length - 1]) [4, 5, 6] = [1, 2] := rfl

/-- C33 fails: a second sort is not applied to the result of the first, traces of equal key stay in the order of the
input. -/
theorem C33_ties_refuted : ¬ ∀ (ts : List Nat) (k1 k2 : Nat → Nat) (names : List Unit) (file : List Nat),
    output 0 (fun l => [l.length]) (fresh [ts]) [.sort k1, .sort k2] = .ok (names, some file) →
    file = applied (fun l => [l.length]) [.sort k1, .sort k2] ts := by
  intro h
  have := h [3, 2, 0] id (· / 2) [] [0, 3, 2] (by decide +kernel)
  revert this
  decide +kernel

/-- C33, kept part for a gather operation: after at most one sort, which counts only if the group has several files and
must then decide between all traces (`C33_files_refuted`),
one gather operation at the end is applied once to every gather, if the gathers found lie in the file. (To sort there
must be three traces or none, `C33_small_refuted`.) -/
theorem C33_gather_partial (blank : T) (sizes : List T → List Nat) (files : List (List T)) (_ : files ≠ []) (keys : List (T → Nat))
    (hk : keys = [] ∨ (1 < files.length ∧ keys.length = 1 ∧ (3 ≤ files.flatten.length ∨ files.flatten = []) ∧
      ∀ k ∈ keys, ∀ a ∈ files.flatten, ∀ b ∈ files.flatten, k a = k b → a = b)) (g : List T → List T)
    (hs : ∀ l : List T, l.Perm files.flatten → (sizes l).sum ≤ l.length) :
    ∃ names, output blank sizes (fresh files) (keys.map Op.sort ++ [.gather g])
      = .ok (names, some (applied sizes (keys.map Op.sort ++ [.gather g]) files.flatten)) := by
  have main : ∀ st : St T, ∀ src, (if st.many then written st.pos st.traces else st.traces) = src →
      (sizes src).sum ≤ src.length →
      run blank sizes false st [.gather g, .single id] = .ok ([], some ((applied.cut (sizes src) src).flatMap g)) := by
    intro st src hsrc hsz
    have h1 : startGather blank sizes st [.gather g, .single id] = .ok ((applied.cut (sizes src) src).flatMap g) := by
      unfold startGather
      simp only [hsrc, gatherCount, Nat.zero_add]
      have := gatherLoop_one blank g src (sizes src) 0 (by omega)
      simpa using this
    simp only [run]
    rw [h1, Res.ok_bind]
    have h2 : ([Op.single (T := T) id]).all Op.isGather = false := rfl
    rw [h2]
    simp only [Bool.false_eq_true, ↓reduceIte, Res.ok_bind, blockSingle, List.map_id, fresh_one]
    rw [written_range _ _ List.pairwise_lt_range (by simp)]
  have hlen : (fresh files).ltn.length = (fresh files).traces.length := localNumbers_length _ files 0
  have hwr : written (fresh files).pos (fresh files).traces = files.flatten :=
    written_range files.flatten _ List.pairwise_lt_range (by simp [fresh])
  rcases hk with hk | ⟨hm, hk, hn, hi⟩
  · subst hk
    refine ⟨[], ?_⟩
    have := main (fresh files) files.flatten (by rw [hwr]; exact ite_self _) (hs _ (List.Perm.refl _))
    exact this
  · obtain ⟨k, rfl⟩ := List.length_eq_one_iff.1 hk
    refine ⟨[], ?_⟩
    have hp := List.perm_insertionSort (fun a b => k a ≤ k b) files.flatten
    have := main { fresh files with pos := ranks k (fresh files).ltn (fresh files).traces }
      (files.flatten.insertionSort fun a b => k a ≤ k b)
      (by
        rw [show (fresh files).many = true by simp [fresh, hm]]
        exact written_inj k _ _ hlen (hi k (by simp))) (hs _ hp)
    unfold output
    simp only [List.map_cons, List.map_nil, List.cons_append, List.nil_append, run.eq_2, run.eq_3] at this ⊢
    rw [sortStep_eq k _ _ hlen hn, Res.ok_bind, this, Res.ok_bind]
    rfl

/-- Two files and a key without ties. -/
example : 1 < [[7, 5], [6]].length ∧ 3 ≤ [[7, 5], [6]].flatten.length ∧
    ∀ k ∈ [fun x : Nat => x], ∀ a ∈ [[7, 5], [6]].flatten, ∀ b ∈ [[7, 5], [6]].flatten, k a = k b → a = b := by
  refine ⟨by decide, by decide, ?_⟩
  intro k hk a _ b _ h
  rw [List.mem_singleton] at hk
  subst hk
  exact h

example : ∀ l : List Nat, l.Perm [4, 5, 6] → ((fun l : List Nat => [1, l.length - 1]) l).sum ≤ l.length := by
  intro l hl
  have := hl.length_eq
  simp only [List.length_cons, List.length_nil] at this
  simp [this]

end Verif.Flow
