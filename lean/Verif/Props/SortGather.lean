import Verif.Props.Life

/-!
# C96: a gather operation after a sort
-/

namespace Verif.Life
open Verif.Flow

variable {T : Type}

theorem startGather_join (num : Int → List Char) (blank : T) (sizes : List T → List Nat) (ops : List (Op T)) (st st' : S T)
    (fs fs' : FS T) (h : join num fs st = .ok (fs', st')) (h' : join num fs' st' = .ok (fs', st')) :
    startGather num blank sizes ops st fs = startGather num blank sizes ops st' fs' := by
  unfold startGather
  rw [h, h']

theorem join_alone (num : Int → List Char) (fs : FS T) (key : Key) (n : Name) (ts : List T) (p : List Nat) (kept : List Name)
    (outfix : Name) (msg : List Char) (func : List (Op T)) :
    join num fs (one key [(n, ts)] p kept outfix msg func) = .ok (fs, one key [(n, ts)] p kept outfix msg func) := by
  unfold join
  rw [if_neg (by simp [one, dealTo_length, base])]

/-- The queue from a gather operation on, for a set of one file. -/
theorem run_gather (num : Int → List Char) (blank : T) (sizes : List T → List Nat) (k : Key → Key) (g : List T → List T)
    (fns : List (T → T)) (key : Key) (n : Name) (ts : List T) (p : List Nat) (kept : List Name) (name : Name)
    (msg : List Char) (hs : (sizes ts).sum ≤ ts.length) (hs0 : sizes ts ≠ []) (hn : n ≠ gtemp) (hk : gtemp ∉ kept)
    (hname : name ≠ "gtemp".toList) (hk' : name ++ ".segy".toList ∉ kept) (fs : FS T) (ts' : List T)
    (hts' : ts' = ((applied.cut (sizes ts) ts).flatMap g).map (through fns)) :
    run num blank sizes .none (Op.gather k g :: (fns ++ [id]).map Op.single) (one key [(n, ts)] p kept name msg []) fs
      = .ok (Function.update (Function.update fs gtemp (some ⟨k key, [], ts'⟩)) (name ++ ".segy".toList)
            (some ⟨k key, defaultMsg, ts'.map (through fns)⟩),
          one (k key) [(gtemp, ts')] (List.range ts'.length) kept name defaultMsg [], []) := by
  have h := output_gather num blank sizes k g fns key n ts p kept [] name msg hs hs0 hn hk hname hk' fs ts' hts'
  unfold output at h
  have hq : (one key [(n, ts)] p kept [] msg (Op.gather k g :: fns.map Op.single)).func ++ [Op.single id]
      = Op.gather k g :: (fns ++ [id]).map Op.single := by simp [one]
  have hst : ({ one key [(n, ts)] p kept [] msg (Op.gather k g :: fns.map Op.single) with outfix := name, func := [] } : S T)
      = one key [(n, ts)] p kept name msg [] := rfl
  rwa [hq, hst] at h

/-- The end of a set that has become the temporary file. -/
theorem finish_gather (num : Int → List Char) (blank : T) (sizes : List T → List Nat) (key : Key) (out : List T)
    (kept : List Name) (name : Name) (hn0 : name ≠ []) (hname : name ≠ "gtemp".toList) (hk' : name ++ ".segy".toList ∉ kept)
    (fs : FS T) :
    finish num blank sizes (one key [(gtemp, out)] (List.range out.length) kept name defaultMsg []) fs
      = .ok (Function.update fs (name ++ ".segy".toList) (some ⟨key, defaultMsg, out⟩)) := by
  rw [finish_eq _ _ _ _ _ rfl hn0]
  have hsuf : suffix num key ([(gtemp, out)] : List (Name × List T)).length = ".segy".toList := rfl
  have hne : name ++ ".segy".toList ≠ gtemp := by
    intro h
    exact hname (List.append_cancel_right (h.trans (show gtemp = "gtemp".toList ++ ".segy".toList by decide)))
  have hg : (one key [(gtemp, out)] (List.range out.length) kept name defaultMsg []).groups
      = [(key, dealTo (List.range out.length) (base key [(gtemp, out)]))] := rfl
  have hox : (one key [(gtemp, out)] (List.range out.length) kept name defaultMsg []).outfix = name := rfl
  rw [startSingle_ok]
  · rw [hg, hox]
    simp only [wrote, List.foldl_cons, List.foldl_nil, Res.ok_bind, outName_one, hsuf]
    congr 3
    unfold outSeg
    simp only [dealTo_tracesOf, base_tracesOf]
    have hall : allOf [(gtemp, out)] = out := by simp [allOf]
    rw [dealTo_pos _ _ (by rw [base_tracesOf, hall]; simp), hall]
    simp only [List.map_cons, List.map_nil, Op.core, blockSingle, List.map_id]
    rw [written_range _ _ List.pairwise_lt_range (by simp)]
    rfl
  · intro x hx
    rw [hg, List.mem_singleton] at hx
    rw [hx, hox, outName_one, one_open, hsuf]
    simp only [List.map_cons, List.map_nil, List.mem_append, List.mem_singleton, not_or]
    exact ⟨hne, hk'⟩

theorem segy_end (n : Name) : isSegy (n ++ ".segy".toList) = true := by
  unfold isSegy
  simp

theorem temp_ne (num : Int → List Char) (key : Key) (n : Nat) : "temp".toList ++ suffix num key n ≠ gtemp := by
  intro h
  have := congrArg List.head? h
  have h1 : ("temp".toList ++ suffix num key n).head? = some 't' := rfl
  rw [h1] at this
  exact absurd this (by decide +kernel)

/-- The queue of a program: sorts, a gather operation, single-trace operations. -/
theorem life_sorted (num : Int → List Char) (blank : T) (sizes : List T → List Nat) (keys : List (T → Nat)) (k : Key → Key)
    (g : List T → List T) (fns : List (T → T)) (key : Key) (files : List (Name × List T)) (hne : files ≠ [])
    (hnd : (files.map Prod.fst).Nodup) (fs : FS T)
    (hf : ∀ f ∈ files, isSegy f.1 = true ∧ ∃ t, fs f.1 = some ⟨key, t, f.2⟩)
    (h3 : keys = [] ∨ 3 ≤ (allOf files).length) (name : Name) (hn0 : name ≠ []) (hname : name ≠ "gtemp".toList)
    (hnf : name ++ ".segy".toList ∉ files.map Prod.fst) (fs1 : FS T) (n1 : Name) (ord : List T)
    (out : List T) (p : List Nat) (msg : List Char)
    (hto : ∀ kept, (∀ n ∈ kept, n ∈ files.map Prod.fst) → ∀ rest,
      run num blank sizes .none (Op.gather k g :: rest)
        (one key files (placed files (List.range (allOf files).length) keys) kept name defaultMsg []) fs
      = run num blank sizes .none (Op.gather k g :: rest) (one key [(n1, ord)] p kept name msg []) fs1)
    (hn1 : n1 ≠ gtemp) (hg : gtemp ∉ files.map Prod.fst) (hs : (sizes ord).sum ≤ ord.length) (hs0 : sizes ord ≠ [])
    (hout : out = ((applied.cut (sizes ord) ord).flatMap g).map (through fns)) :
    life num blank sizes (files.map Prod.fst) []
        ((keys.map Op.sort ++ Op.gather k g :: fns.map Op.single).map Call.queue ++ [.output name]) fs
      = .ok (Function.update (Function.update fs1 gtemp (some ⟨k key, [], out⟩)) (name ++ ".segy".toList)
          (some ⟨k key, defaultMsg, out⟩)) := by
  unfold life
  rw [addAll_one fs key [] files hne hnd hf, Res.ok_bind, calls_queue, calls, output]
  have hst : ({ ({ one key files (List.range (allOf files).length) [] [] defaultMsg [] with
        func := (one key files (List.range (allOf files).length) [] [] defaultMsg []).func ++
          (keys.map Op.sort ++ Op.gather k g :: fns.map Op.single) } : S T) with outfix := name, func := [] } : S T)
      = one key files (List.range (allOf files).length) [] name defaultMsg [] := rfl
  have hq : ({ one key files (List.range (allOf files).length) [] [] defaultMsg [] with
        func := (one key files (List.range (allOf files).length) [] [] defaultMsg []).func ++
          (keys.map Op.sort ++ Op.gather k g :: fns.map Op.single) } : S T).func ++ [Op.single id]
      = keys.map Op.sort ++ (Op.gather k g :: (fns ++ [id]).map Op.single) := by simp [one]
  rw [hst, hq, run_sorts]
  obtain ⟨kept, hkept, hsort⟩ := sortAll_one key files name defaultMsg [] keys (h3.imp_right Or.inl)
    (List.range (allOf files).length) [] (by simp)
  rw [hsort, Res.ok_bind, hto kept hkept,
    run_gather num blank sizes k g fns key n1 ord p kept name msg hs hs0 hn1 (fun h => hg (hkept _ h)) hname
      (fun h => hnf (hkept _ h)) fs1 out hout, Res.ok_bind, Res.ok_bind, calls, Res.ok_bind]
  dsimp only
  rw [finish_gather num blank sizes (k key) out kept name hn0 hname (fun h => hnf (hkept _ h)), Function.update_idem]

/-- C96 (partial): a set of two or more files of one kind, any number of sorts, a gather operation (`toAngle`), any number
of single-trace operations and an output. At the end of the program the output has the gather operation applied once to every
gather of the sorted traces and the single-trace operations once to every trace, in order; the traces sorted are those of the
input files, in the order of the last sort (in that of the files if there was none).

The full claim is for any number of files: `C96_ignored_refuted`. -/
theorem C96_files_partial (num : Int → List Char) (blank : T) (sizes : List T → List Nat) (keys : List (T → Nat)) (k : Key → Key)
    (g : List T → List T) (fns : List (T → T)) (key : Key) (files : List (Name × List T)) (h2 : 2 ≤ files.length)
    (hnd : (files.map Prod.fst).Nodup) (fs : FS T)
    (hf : ∀ f ∈ files, isSegy f.1 = true ∧ ∃ t, fs f.1 = some ⟨key, t, f.2⟩)
    (h3 : keys = [] ∨ 3 ≤ (files.flatMap Prod.snd).length) (name : Name) (hn0 : name ≠ []) (hname : name ≠ "gtemp".toList)
    (temp : Name) (htemp : temp = "temp".toList ++ decimal key.1 ++ ['_'] ++ num key.2 ++ ".segy".toList)
    (hno : ∀ f ∈ files, f.1 ≠ temp ∧ f.1 ≠ "gtemp.segy".toList ∧ f.1 ≠ name ++ ".segy".toList)
    (hs : ∀ ts : List T, ts.Perm (files.flatMap Prod.snd) → (sizes ts).sum ≤ ts.length ∧ sizes ts ≠ []) :
    ∃ ord : List T, ord.Perm (files.flatMap Prod.snd) ∧ (keys = [] → ord = files.flatMap Prod.snd) ∧
      (∀ by', keys.getLast? = some by' → ord.Pairwise fun a b => by' a ≤ by' b) ∧
      ∃ fs', life num blank sizes (files.map Prod.fst) []
          ((keys.map Op.sort ++ Op.gather k g :: fns.map Op.single).map Call.queue ++ [.output name]) fs = .ok fs' ∧
        fs' (name ++ ".segy".toList)
          = some ⟨k key, defaultMsg, applied sizes (.gather g :: fns.map Flow.Op.single) ord⟩ ∧
        ∀ n, n ≠ name ++ ".segy".toList → n ≠ "gtemp.segy".toList → n ≠ temp → fs' n = fs n := by
  have hp : (placed files (List.range (allOf files).length) keys).length = (allOf files).length := by
    unfold placed
    split
    · simp
    · exact ranks_length _ _ _ (numbers_length files)
  have htp : "temp".toList ++ suffix num key files.length = temp := by
    rw [htemp, suffix, if_neg (by omega)]
    simp only [List.append_assoc]
  have hperm : (written (placed files (List.range (allOf files).length) keys) (allOf files)).Perm (files.flatMap Prod.snd) :=
    written_perm _ _ hp
  obtain ⟨hs1, hs0⟩ := hs _ hperm
  have hmem : ∀ n, n ∈ files.map Prod.fst → n ≠ temp ∧ n ≠ gtemp ∧ n ≠ name ++ ".segy".toList := by
    intro n hn
    obtain ⟨f, hf', rfl⟩ := List.mem_map.1 hn
    exact hno f hf'
  refine ⟨_, hperm, ?_, ?_, _,
    life_sorted num blank sizes keys k g fns key files (by rintro rfl; simp at h2) hnd fs hf h3 name hn0 hname
      (fun h => (hmem _ h).2.2 rfl) (Function.update fs temp (some ⟨key, defaultMsg,
        written (placed files (List.range (allOf files).length) keys) (allOf files)⟩)) temp
      (written (placed files (List.range (allOf files).length) keys) (allOf files)) _ (List.range (allOf files).length) defaultMsg ?_
      (by rw [← htp]; exact temp_ne num key files.length) (fun h => (hmem _ h).2.1 rfl) hs1 hs0 rfl, ?_, ?_⟩
  · intro he
    rw [he]
    exact written_range _ (List.range (allOf files).length) List.pairwise_lt_range (by simp)
  · intro by' hk
    unfold placed
    rw [hk]
    exact written_sorted by' _ _ (numbers_length files)
  · intro kept hkept rest
    have hj := join_one num key files (by omega) (placed files (List.range (allOf files).length) keys) hp kept name defaultMsg []
      (by rw [htp, htemp]; exact segy_end _) (by
        rw [htp]
        intro h
        rcases List.mem_append.1 h with h | h
        · exact (hmem _ h).1 rfl
        · exact (hmem _ (hkept _ h)).1 rfl) fs
    rw [htp] at hj
    rw [run.eq_4 (x_5 := by simp), run.eq_4 (x_5 := by simp), startGather_join num blank sizes _ _ _ _ _ hj (join_alone ..)]
  · rw [Function.update_self, applied, applied_singles]
  · intro n h1 h4 h5
    rw [Function.update_of_ne h1, Function.update_of_ne h4, Function.update_of_ne h5]

/-- The gathers of two files, `[5, 3]` and `[4]`, sorted: the first two traces are put in front of themselves. -/
def exPair : FS Nat := fun n =>
  if n = "a.segy".toList then some ⟨(1, 4), [], [5, 3]⟩ else if n = "b.segy".toList then some ⟨(1, 4), [], [4]⟩ else none

example : look "out.segy".toList (life (fun _ => "0.004".toList) 0 (fun l => [2, l.length - 2]) ["a.segy".toList, "b.segy".toList] []
    [.queue (.sort id), .queue (.gather id fun l => l ++ l), .queue (.single (· + 1)), .output "out".toList] exPair)
      = some [4, 5, 4, 5, 6, 6] := by
  decide +kernel

example : ∃ ord : List Nat, ord.Pairwise fun a b => a ≤ b := by
  obtain ⟨ord, _, _, h, _⟩ := C96_files_partial (fun _ => "0.004".toList) 0 (fun l : List Nat => [2, l.length - 2]) [id] id (fun l => l ++ l)
    [(· + 1)] (1, 4) [("a.segy".toList, [5, 3]), ("b.segy".toList, [4])] (by decide) (by decide +kernel) exPair (by
      intro f hf
      have : f = ("a.segy".toList, [5, 3]) ∨ f = ("b.segy".toList, [4]) := by simpa using hf
      rcases this with rfl | rfl
      · exact ⟨by decide +kernel, [], by decide +kernel⟩
      · exact ⟨by decide +kernel, [], by decide +kernel⟩) (Or.inr (by decide)) "out".toList (by decide) (by decide) _ rfl
    (by decide +kernel) (by
      intro ts hts
      have : ts.length = 3 := hts.length_eq
      refine ⟨?_, by simp⟩
      simp [this])
  exact ⟨ord, h id rfl⟩

/-- C96 fails for a set of one file: sorts before the gather operation have no effect at all. What the program leaves behind is
the same, file by file, as if they had not been asked for; the gathers are those of the unsorted file. For every file of at
least three traces, all sorts, all gather and single-trace operations. In the concrete case the gather operation keeps
the first trace of its gather, which after the sort is the one with the number 3. -/
theorem C96_ignored_refuted (num : Int → List Char) (blank : T) (sizes : List T → List Nat) (keys : List (T → Nat)) (k : Key → Key)
    (g : List T → List T) (fns : List (T → T)) (key : Key) (n : Name) (ts : List T) (hn : n ≠ "gtemp.segy".toList)
    (hseg : isSegy n = true) (text : List Char) (fs : FS T) (hf : fs n = some ⟨key, text, ts⟩) (h3 : 3 ≤ ts.length)
    (name : Name) (hn0 : name ≠ []) (hname : name ≠ "gtemp".toList) (hnn : n ≠ name ++ ".segy".toList)
    (hs : (sizes ts).sum ≤ ts.length) (hs0 : sizes ts ≠ []) :
    (∃ fs', life num blank sizes [n] [] ((keys.map Op.sort ++ Op.gather k g :: fns.map Op.single).map Call.queue ++ [.output name]) fs
        = .ok fs' ∧
      life num blank sizes [n] [] ((Op.gather k g :: fns.map Op.single).map Call.queue ++ [.output name]) fs = .ok fs') ∧
    look "out.segy".toList (life (fun _ => []) 0 (fun l => [l.length]) ["in.segy".toList] []
      [.queue (.sort id), .queue (.gather id (List.take 1)), .output "out".toList] exFS) = some [5] := by
  refine ⟨?_, by decide +kernel⟩
  have ha : allOf [(n, ts)] = ts := by simp [allOf]
  have key' : ∀ keys : List (T → Nat), life num blank sizes [n] []
      ((keys.map Op.sort ++ Op.gather k g :: fns.map Op.single).map Call.queue ++ [.output name]) fs
      = .ok (Function.update (Function.update fs gtemp
          (some ⟨k key, [], ((applied.cut (sizes ts) ts).flatMap g).map (through fns)⟩)) (name ++ ".segy".toList)
          (some ⟨k key, defaultMsg, ((applied.cut (sizes ts) ts).flatMap g).map (through fns)⟩)) := by
    intro keys
    refine life_sorted num blank sizes keys k g fns key [(n, ts)] (by simp) (by simp) fs (by
      intro f hm
      have : f = (n, ts) := by simpa using hm
      subst this
      exact ⟨hseg, text, hf⟩) (Or.inr (by rw [ha]; exact h3)) name hn0 hname (by simpa using hnn.symm) fs n ts _ _ defaultMsg
      (fun kept _ rest => rfl) hn (by
        rw [List.map_cons, List.map_nil, List.mem_singleton]; exact fun h => hn h.symm) hs hs0 rfl
  exact ⟨_, key' keys, key' []⟩

example : exFS "in.segy".toList = some ⟨(1, 4), [], [5, 3, 4]⟩ ∧ 3 ≤ [5, 3, 4].length ∧ "in.segy".toList ≠ "out".toList ++ ".segy".toList ∧
    [5, 3, 4].insertionSort (fun a b : Nat => a ≤ b) = [3, 4, 5] := by decide +kernel

end Verif.Life
