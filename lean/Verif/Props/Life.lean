import Verif.Flow.Life
import Verif.Props.Pipeline

/-!
C85: what a set leaves behind. Several outputs of the same set, the output made at its end, and the names it uses.
-/

namespace Verif.Life
open Verif.Flow

variable {T : Type}

theorem of_ok {α β : Type} {x : Res α} {f : α → Res β} {b : β} (h : x >>= f = .ok b) : ∃ a, x = .ok a ∧ f a = .ok b := by
  cases x with
  | ok a => exact ⟨a, rfl, h⟩
  | ub => cases h
  | abort => cases h

/-! Writing the groups. -/

/-- All groups written. -/
def wrote (num : Int → List Char) (outfix : Name) (ops : List (Op T)) (st : S T) (gs : List (Key × List (Held T)))
    (fs : FS T) : FS T :=
  gs.foldl (fun fs g => Function.update fs (outName num outfix g) (some (outSeg ops st g))) fs

theorem writeGroups_ok (num : Int → List Char) (outfix : Name) (ops : List (Op T)) (st : S T)
    (gs : List (Key × List (Held T))) (h : ∀ g ∈ gs, outName num outfix g ∉ openNames st) :
    ∀ fs, writeGroups num outfix ops st gs fs = .ok (wrote num outfix ops st gs fs) := by
  induction gs with
  | nil => intro fs; rfl
  | cons g gs ih =>
    intro fs
    rw [writeGroups, writeSeg, if_neg (h g (by simp)), Res.ok_bind, ih fun x hx => h x (by simp [hx])]
    rfl

theorem writeGroups_ub (num : Int → List Char) (outfix : Name) (ops : List (Op T)) (st : S T)
    (gs : List (Key × List (Held T))) (h : ∃ g ∈ gs, outName num outfix g ∈ openNames st) :
    ∀ fs, writeGroups num outfix ops st gs fs = .ub := by
  induction gs with
  | nil => obtain ⟨g, hg, _⟩ := h; simp at hg
  | cons g gs ih =>
    intro fs
    rw [writeGroups, writeSeg]
    by_cases hg : outName num outfix g ∈ openNames st
    · rw [if_pos hg]; rfl
    · rw [if_neg hg, Res.ok_bind]
      apply ih
      obtain ⟨x, hx, ho⟩ := h
      rcases List.mem_cons.1 hx with rfl | hx
      · exact absurd ho hg
      · exact ⟨x, hx, ho⟩

theorem startSingle_ok (num : Int → List Char) (outfix : Name) (ops : List (Op T)) (st : S T) (fs : FS T)
    (h : ∀ g ∈ st.groups, outName num outfix g ∉ openNames st) :
    startSingle num outfix ops st fs = .ok (wrote num outfix ops st st.groups fs, st.groups.map (outName num outfix)) := by
  rw [startSingle, writeGroups_ok num outfix ops st _ h]
  rfl

theorem startSingle_ub (num : Int → List Char) (outfix : Name) (ops : List (Op T)) (st : S T) (fs : FS T)
    (h : ¬ ∀ g ∈ st.groups, outName num outfix g ∉ openNames st) : startSingle num outfix ops st fs = .ub := by
  push Not at h
  rw [startSingle, writeGroups_ub num outfix ops st _ h]
  rfl

theorem wrote_off (num : Int → List Char) (outfix : Name) (ops : List (Op T)) (st : S T) (gs : List (Key × List (Held T)))
    (n : Name) (h : n ∉ gs.map (outName num outfix)) : ∀ fs, wrote num outfix ops st gs fs n = fs n := by
  induction gs with
  | nil => intro fs; rfl
  | cons g gs ih =>
    intro fs
    simp only [List.map_cons, List.mem_cons, not_or] at h
    have := ih h.2 (Function.update fs (outName num outfix g) (some (outSeg ops st g)))
    unfold wrote at this ⊢
    rw [List.foldl_cons, this, Function.update_of_ne h.1]

theorem wrote_congr (num : Int → List Char) (outfix : Name) (ops : List (Op T)) (st : S T) (gs : List (Key × List (Held T))) :
    ∀ fs fs' : FS T, (∀ n, n ∉ gs.map (outName num outfix) → fs n = fs' n) →
      wrote num outfix ops st gs fs = wrote num outfix ops st gs fs' := by
  induction gs with
  | nil => intro fs fs' h; exact funext fun n => h n (by simp)
  | cons g gs ih =>
    intro fs fs' h
    refine ih _ _ ?_
    intro n hn
    dsimp only
    by_cases he : n = outName num outfix g
    · subst he; rw [Function.update_self, Function.update_self]
    · rw [Function.update_of_ne he, Function.update_of_ne he]
      exact h n (by simp [he, hn])

/-! Sorts and single-trace operations. -/

/-- Several sorts. -/
def sortAll : List (T → Nat) → S T → Res (S T)
  | [], st => .ok st
  | k :: ks, st => do
    let st ← startSubset k st
    sortAll ks st

theorem run_skip (num : Int → List Char) (blank : T) (sizes : List T → List Nat) (fns : List (T → T)) (st : S T) (fs : FS T) :
    run num blank sizes .singles (fns.map Op.single) st fs = .ok (fs, st, []) := by
  induction fns with
  | nil => rfl
  | cons f fns ih => rw [List.map_cons, run, ih]

theorem run_singles (num : Int → List Char) (blank : T) (sizes : List T → List Nat) (sk : Skip) (hsk : sk ≠ .singles) (f : T → T)
    (fns : List (T → T)) (st : S T) (fs : FS T) :
    run num blank sizes sk ((f :: fns).map Op.single) st fs
      = startSingle num st.outfix ((f :: fns).map Op.single) st fs >>= fun r => .ok (r.1, st, r.2) := by
  have h : run num blank sizes sk ((f :: fns).map Op.single) st fs
      = startSingle num st.outfix ((f :: fns).map Op.single) st fs >>= fun r =>
        if r.2 ≠ [] then .ok (r.1, st, r.2)
        else (run num blank sizes .singles (fns.map Op.single) st r.1 >>= fun q => .ok (q.1, q.2.1, [])) := by
    cases sk with
    | singles => exact absurd rfl hsk
    | none => rw [List.map_cons, run]; simp
    | gathers => rw [List.map_cons, run]; simp
  rw [h]
  cases startSingle num st.outfix ((f :: fns).map Op.single) st fs with
  | ub => rfl
  | abort => rfl
  | ok r =>
    rw [Res.ok_bind, Res.ok_bind]
    by_cases hr : r.2 = []
    · rw [if_neg (by simp [hr]), run_skip, Res.ok_bind, hr]
    · rw [if_pos hr]

theorem run_sorts (num : Int → List Char) (blank : T) (sizes : List T → List Nat) (keys : List (T → Nat)) (rest : List (Op T))
    (fs : FS T) : ∀ st : S T, run num blank sizes .none (keys.map Op.sort ++ rest) st fs
      = sortAll keys st >>= fun st => run num blank sizes .none rest st fs >>= fun r =>
          .ok (r.1, r.2.1, if keys = [] then r.2.2 else []) := by
  induction keys with
  | nil =>
    intro st
    rw [sortAll, Res.ok_bind, List.map_nil, List.nil_append]
    cases run num blank sizes .none rest st fs <;> rfl
  | cons k keys ih =>
    intro st
    rw [List.map_cons, List.cons_append, run, sortAll]
    cases startSubset k st with
    | ub => rfl
    | abort => rfl
    | ok st =>
      simp only [Res.ok_bind]
      rw [ih]
      cases sortAll keys st with
      | ub => rfl
      | abort => rfl
      | ok st =>
        simp only [Res.ok_bind]
        cases run num blank sizes .none rest st fs <;> simp [Res.ok_bind, Res.ub_bind, Res.abort_bind]

theorem startSubset_fields (k : T → Nat) (st st' : S T) (h : startSubset k st = .ok st') :
    st'.outfix = st.outfix ∧ st'.outmsg = st.outmsg ∧ st'.func = st.func := by
  unfold startSubset at h
  split at h
  · cases h
  · obtain ⟨gs, _, h⟩ := of_ok h
    cases h
    exact ⟨rfl, rfl, rfl⟩

theorem sortAll_fields (keys : List (T → Nat)) : ∀ st st' : S T, sortAll keys st = .ok st' →
    st'.outfix = st.outfix ∧ st'.outmsg = st.outmsg ∧ st'.func = st.func := by
  induction keys with
  | nil => intro st st' h; cases h; exact ⟨rfl, rfl, rfl⟩
  | cons k keys ih =>
    intro st st' h
    obtain ⟨s, h1, h2⟩ := of_ok h
    obtain ⟨a, b, c⟩ := startSubset_fields k st s h1
    obtain ⟨a', b', c'⟩ := ih s st' h2
    exact ⟨a'.trans a, b'.trans b, c'.trans c⟩

/-- The output of a set with sorts and single-trace operations queued. -/
theorem output_eq (num : Int → List Char) (blank : T) (sizes : List T → List Nat) (name : Name) (keys : List (T → Nat))
    (fns : List (T → T)) (st : S T) (fs : FS T) (hf : st.func = keys.map Op.sort ++ fns.map Op.single) :
    output num blank sizes name st fs = sortAll keys { st with outfix := name, func := [] } >>= fun s =>
      startSingle num name ((fns ++ [id]).map Op.single) s fs >>= fun r => .ok (r.1, s, if keys = [] then r.2 else []) := by
  have hs : fns.map Op.single ++ [Op.single id] = (fns ++ [id]).map Op.single := by simp
  rw [output, hf, List.append_assoc, hs, run_sorts]
  cases hr : sortAll keys { st with outfix := name, func := [] } with
  | ub => rfl
  | abort => rfl
  | ok s =>
    have ho := (sortAll_fields keys _ _ hr).1
    simp only [Res.ok_bind]
    obtain ⟨f, l, hl⟩ : ∃ f l, fns ++ [id] = f :: l := by
      cases fns with
      | nil => exact ⟨id, [], rfl⟩
      | cons a b => exact ⟨a, b ++ [id], rfl⟩
    rw [hl, run_singles num blank sizes .none (by simp), ho]
    cases startSingle num name ((f :: l).map Op.single) s fs <;> rfl

/-- The end of a set whose queue is empty: it is written again, as it is. -/
theorem finish_eq (num : Int → List Char) (blank : T) (sizes : List T → List Nat) (st : S T) (fs : FS T)
    (hf : st.func = []) (ho : st.outfix ≠ []) :
    finish num blank sizes st fs = startSingle num st.outfix [.single id] st fs >>= fun r => .ok r.1 := by
  rw [finish, if_neg ho, output_eq num blank sizes st.outfix [] [] st fs (by simpa using hf)]
  have : ({ st with outfix := st.outfix, func := [] } : S T) = st := by
    cases st
    simp only at hf
    subst hf
    rfl
  rw [this, sortAll, Res.ok_bind]
  simp only [List.nil_append, List.map_cons, List.map_nil]
  cases startSingle num st.outfix [Op.single id] st fs <;> rfl

theorem calls_append (num : Int → List Char) (blank : T) (sizes : List T → List Nat) (a b : List (Call T)) :
    ∀ (st : S T) (fs : FS T), calls num blank sizes (a ++ b) st fs
      = calls num blank sizes a st fs >>= fun r => calls num blank sizes b r.1 r.2 := by
  induction a with
  | nil => intro st fs; rfl
  | cons c a ih =>
    intro st fs
    cases c with
    | queue o => exact ih _ _
    | text m => exact ih _ _
    | output n =>
      simp only [List.cons_append, calls]
      cases output num blank sizes n st fs with
      | ub => rfl
      | abort => rfl
      | ok r => exact ih _ _
    | add n =>
      simp only [List.cons_append, calls]
      cases add fs st n with
      | ub => rfl
      | abort => rfl
      | ok r => exact ih _ _

theorem calls_queue (num : Int → List Char) (blank : T) (sizes : List T → List Nat) (ops : List (Op T)) (l : List (Call T))
    (fs : FS T) : ∀ st : S T, calls num blank sizes (ops.map Call.queue ++ l) st fs
      = calls num blank sizes l { st with func := st.func ++ ops } fs := by
  induction ops with
  | nil => intro st; simp
  | cons o ops ih =>
    intro st
    rw [List.map_cons, List.cons_append, calls, ih]
    simp

/-- No call but `queue` makes the queue longer. -/
theorem join_func (num : Int → List Char) (fs fs' : FS T) (st st' : S T) (h : join num fs st = .ok (fs', st')) :
    st'.func = st.func := by
  have hadd : ∀ (fs : FS T) (names : List Name) (st st' : S T), addAll fs st names = .ok st' → st'.func = st.func := by
    intro fs names
    induction names with
    | nil => intro st st' h; cases h; rfl
    | cons n names ih =>
      intro st st' h
      obtain ⟨s, h1, h2⟩ := of_ok h
      rw [ih s st' h2]
      unfold add at h1
      split at h1
      · cases h1
      · split at h1
        · split at h1
          · cases h1
          · cases h1; rfl
        · cases h1; rfl
  unfold join at h
  split at h
  · obtain ⟨r, _, h⟩ := of_ok h
    obtain ⟨s, h1, h2⟩ := of_ok h
    cases h2
    have := hadd _ _ _ _ h1
    exact this
  · cases h; rfl

theorem add_func (fs : FS T) (st st' : S T) (n : Name) (h1 : add fs st n = .ok st') : st'.func = st.func := by
  unfold add at h1
  split at h1
  · cases h1
  · split at h1
    · split at h1
      · cases h1
      · cases h1; rfl
    · cases h1; rfl

theorem startGather_func (num : Int → List Char) (blank : T) (sizes : List T → List Nat) (ops : List (Op T)) (st : S T) (fs : FS T)
    (r : FS T × S T × Name) (h : startGather num blank sizes ops st fs = .ok r) : r.2.1.func = st.func := by
  unfold startGather at h
  obtain ⟨⟨fs1, st1⟩, h1, h⟩ := of_ok h
  obtain ⟨fs2, _, h⟩ := of_ok h
  have e := join_func num _ _ _ _ h1
  split at h
  · cases h; exact e
  · obtain ⟨s, h2, h⟩ := of_ok h
    cases h
    have := add_func _ _ _ _ h2
    simp only at this
    exact this.trans e

theorem run_func (num : Int → List Char) (blank : T) (sizes : List T → List Nat) (ops : List (Op T)) :
    ∀ (sk : Skip) (st : S T) (fs : FS T) (r : FS T × S T × List Name), run num blank sizes sk ops st fs = .ok r →
      r.2.1.func = st.func := by
  induction ops with
  | nil => intro sk st fs r h; unfold run at h; cases h; rfl
  | cons o ops ih =>
    intro sk st fs r h
    cases o with
    | sort k =>
      unfold run at h
      obtain ⟨s, h1, h⟩ := of_ok h
      obtain ⟨q, h2, h⟩ := of_ok h
      cases h
      exact (ih _ _ _ _ h2).trans (startSubset_fields k st s h1).2.2
    | gather k g =>
      have hg : ∀ {x : Res (FS T × S T × Name)}, x = startGather num blank sizes (.gather k g :: ops) st fs →
          (x >>= fun q => if q.2.2 ≠ [] then Res.ok (q.1, q.2.1, [q.2.2])
            else (run num blank sizes .gathers ops q.2.1 q.1 >>= fun p => .ok (p.1, p.2.1, []))) = .ok r →
          r.2.1.func = st.func := by
        intro x hx h
        obtain ⟨q, h1, h⟩ := of_ok h
        rw [hx] at h1
        have e := startGather_func num blank sizes _ _ _ _ h1
        split at h
        · cases h; exact e
        · obtain ⟨p, h2, h⟩ := of_ok h
          cases h
          exact (ih _ _ _ _ h2).trans e
      cases sk with
      | none => rw [run.eq_4 (x_5 := by simp)] at h; exact hg rfl h
      | singles => rw [run.eq_4 (x_5 := by simp)] at h; exact hg rfl h
      | gathers => rw [run] at h; exact ih _ _ _ _ h
    | single f =>
      have hg : ∀ {x : Res (FS T × List Name)}, x = startSingle num st.outfix (.single f :: ops) st fs →
          (x >>= fun q => if q.2 ≠ [] then Res.ok (q.1, st, q.2)
            else (run num blank sizes .singles ops st q.1 >>= fun p => .ok (p.1, p.2.1, []))) = .ok r →
          r.2.1.func = st.func := by
        intro x hx h
        obtain ⟨q, h1, h⟩ := of_ok h
        split at h
        · cases h; rfl
        · obtain ⟨p, h2, h⟩ := of_ok h
          cases h
          have := ih _ _ _ _ h2
          exact this
      cases sk with
      | none => rw [run.eq_6 (x_5 := by simp)] at h; exact hg rfl h
      | gathers => rw [run.eq_6 (x_5 := by simp)] at h; exact hg rfl h
      | singles => rw [run] at h; exact ih _ _ _ _ h

/-- An output, then the end of the set: single-trace operations do not matter. -/
theorem lost (num : Int → List Char) (blank : T) (sizes : List T → List Nat) (keys : List (T → Nat)) (fns : List (T → T))
    (name : Name) (hn : name ≠ []) (st : S T) (fs : FS T) :
    (output num blank sizes name { st with func := keys.map Op.sort ++ fns.map Op.single } fs >>= fun r =>
        finish num blank sizes r.2.1 r.1)
      = output num blank sizes name { st with func := keys.map Op.sort } fs >>= fun r => finish num blank sizes r.2.1 r.1 := by
  rw [output_eq num blank sizes name keys fns _ fs rfl, output_eq num blank sizes name keys [] _ fs (by simp)]
  dsimp only
  cases hr : sortAll keys { st with outfix := name, func := [] } with
  | ub => rfl
  | abort => rfl
  | ok s =>
    obtain ⟨ho, _, hf⟩ := sortAll_fields keys _ _ hr
    simp only [Res.ok_bind]
    by_cases hop : ∀ g ∈ s.groups, outName num name g ∉ openNames s
    · rw [startSingle_ok _ _ _ _ _ hop, startSingle_ok _ _ _ _ _ hop]
      simp only [Res.ok_bind]
      rw [finish_eq num blank sizes s _ hf (by rw [ho]; exact hn), finish_eq num blank sizes s _ hf (by rw [ho]; exact hn)]
      have ho' : s.outfix = name := ho
      rw [ho', startSingle_ok _ _ _ _ _ hop, startSingle_ok _ _ _ _ _ hop]
      simp only [Res.ok_bind]
      congr 1
      apply wrote_congr
      intro n h
      rw [wrote_off _ _ _ _ _ n h, wrote_off _ _ _ _ _ n h]
    · rw [startSingle_ub _ _ _ _ _ hop, startSingle_ub _ _ _ _ _ hop]

/-- The example: one file of three traces. -/
def exFS : FS Nat := fun n => if n = "in.segy".toList then some ⟨(1, 4), [], [5, 3, 4]⟩ else none

/-- How the end of a life is looked at in the examples. -/
def look (name : Name) (r : Res (FS Nat)) : Option (List Nat) :=
  match r with
  | .ok fs => (fs name).map Seg.traces
  | _ => none

/-- **C85** (the names). A file is taken if its name ends in `segy` or `sgy`, with small or capital letters. -/
theorem C85_endings (n : Name) : isSegy n = true ↔
    ∃ stem e, n = stem ++ e ∧ (e.map Char.toLower = "segy".toList ∨ e.map Char.toLower = "sgy".toList) := by
  have key : ∀ (s : List Char), (n.map Char.toLower).reverse.take s.length = s.reverse ↔ ∃ stem e, n = stem ++ e ∧ e.map Char.toLower = s := by
    intro s
    constructor
    · intro h
      have hl : s.length ≤ n.length := by
        have := congrArg List.length h
        rw [List.length_take, List.length_reverse, List.length_map, List.length_reverse] at this
        omega
      refine ⟨n.take (n.length - s.length), n.drop (n.length - s.length), (List.take_append_drop _ _).symm, ?_⟩
      rw [List.take_reverse, List.reverse_inj, List.length_map] at h
      rw [List.map_drop, h]
    · rintro ⟨stem, e, rfl, rfl⟩
      rw [List.map_append, List.reverse_append, List.take_left']
      rw [List.length_reverse]
  have k1 := key "segy".toList
  have k2 := key "sgy".toList
  unfold isSegy
  dsimp only
  rw [Bool.or_eq_true, beq_iff_eq, beq_iff_eq]
  refine (or_congr k1 k2).trans ⟨?_, ?_⟩
  · rintro (⟨a, b, h, k⟩ | ⟨a, b, h, k⟩)
    · exact ⟨a, b, h, Or.inl k⟩
    · exact ⟨a, b, h, Or.inr k⟩
  · rintro ⟨a, b, h, k | k⟩
    · exact Or.inl ⟨a, b, h, k⟩
    · exact Or.inr ⟨a, b, h, k⟩

/-- Names that are taken and names that are not. -/
example : isSegy "line.SGY".toList = true ∧ isSegy "missegy".toList = true ∧ isSegy "line.seg".toList = false := by decide

/-- C85 fails: if a program ends with an output of a set, single-trace operations (`taper`, `AGC`, `temporalFilter`) have no effect on
what the program leaves behind. The end of the set writes the same files again, without the operations: every file is the
same as if they had not been queued. This is so for every program whose last output comes after sorts and single-trace operations, whatever it
does before, so for every use of the operations through the C interface, where `PIOL_Set_output` is the only way to write.
In the concrete case the number 1 is to be added. -/
theorem C85_lost_refuted (num : Int → List Char) (blank : T) (sizes : List T → List Nat) (files : List Name) (outfix : Name)
    (prog : List (Call T)) (hp : prog = [] ∨ ∃ p m, prog = p ++ [.output m]) (keys : List (T → Nat)) (fns : List (T → T))
    (name : Name) (hn : name ≠ []) (fs : FS T) :
    life num blank sizes files outfix
        (prog ++ ((keys.map Op.sort ++ fns.map Op.single).map Call.queue ++ [.output name])) fs
      = life num blank sizes files outfix (prog ++ ((keys.map Op.sort).map Call.queue ++ [.output name])) fs ∧
    look "out.segy".toList (life (fun _ => []) 0 (fun _ => []) ["in.segy".toList] []
      [.queue (.single (· + 1)), .output "out".toList] exFS) = some [5, 3, 4] := by
  refine ⟨?_, by decide +kernel⟩
  unfold life
  cases h0 : addAll fs ⟨[], [], outfix, defaultMsg, []⟩ files with
  | ub => rfl
  | abort => rfl
  | ok st0 =>
    simp only [Res.ok_bind]
    rw [calls_append, calls_append]
    cases h1 : calls num blank sizes prog st0 fs with
    | ub => rfl
    | abort => rfl
    | ok q =>
      have hf : q.1.func = [] := by
        rcases hp with rfl | ⟨p, m, rfl⟩
        · have : q = (st0, fs) := by unfold calls at h1; cases h1; rfl
          rw [this]
          have hadd : ∀ (names : List Name) (st st' : S T), addAll fs st names = .ok st' → st'.func = st.func := by
            intro names
            induction names with
            | nil => intro st st' h; cases h; rfl
            | cons n names ih =>
              intro st st' h
              obtain ⟨s, h1, h2⟩ := of_ok h
              rw [ih s st' h2, add_func _ _ _ _ h1]
          exact hadd _ _ _ h0
        · rw [calls_append] at h1
          obtain ⟨a, _, h1⟩ := of_ok h1
          rw [calls] at h1
          obtain ⟨b, h2, h1⟩ := of_ok h1
          unfold calls at h1
          cases h1
          exact run_func num blank sizes _ _ _ _ _ h2
      simp only [Res.ok_bind]
      rw [calls_queue, calls_queue]
      simp only [hf, List.nil_append, calls]
      have hl := lost num blank sizes keys fns name hn q.1 q.2
      have hb : ∀ x : Res (FS T × S T × List Name), ((x >>= fun r => Res.ok (r.2.1, r.1)) >>= fun r => finish num blank sizes r.1 r.2)
          = x >>= fun r => finish num blank sizes r.2.1 r.1 := by
        intro x; cases x <;> rfl
      exact (hb _).trans (hl.trans (hb _).symm)

/-- Between the output and the end the file is as it should be, and it is so with a prefix given to the constructor instead
of a call of `output`. -/
example : look "out.segy".toList (life (fun _ => []) 0 (fun _ => []) ["in.segy".toList] "out".toList
    [.queue (.single (· + 1))] exFS) = some [6, 4, 5] := by decide +kernel

/-- What is written twice is as if it was written once. -/
theorem wrote_again (num : Int → List Char) (outfix : Name) (ops : List (Op T)) (st : S T) (gs : List (Key × List (Held T)))
    (fs : FS T) : wrote num outfix ops st gs (wrote num outfix ops st gs fs) = wrote num outfix ops st gs fs :=
  wrote_congr _ _ _ _ _ _ _ fun n h => wrote_off _ _ _ _ _ n h fs

/-- The part of C85 that holds for sorts: if a program ends with an output and only sorts come between it and the output before, the end of
the set changes nothing: the files are those the output left. Whatever the program does before, with any number of groups
of files.

Missing for the full statement: single-trace operations (`C85_lost_refuted`) and gathers. -/
theorem C85_again_partial (num : Int → List Char) (blank : T) (sizes : List T → List Nat) (prog : List (Call T))
    (hp : prog = [] ∨ ∃ p m, prog = p ++ [.output m]) (keys : List (T → Nat)) (name : Name) (hn : name ≠ [])
    (st st' : S T) (hf : st.func = []) (fs fs' : FS T)
    (h : calls num blank sizes (prog ++ ((keys.map Op.sort).map Call.queue ++ [.output name])) st fs = .ok (st', fs')) :
    finish num blank sizes st' fs' = .ok fs' := by
  rw [calls_append] at h
  obtain ⟨q, h1, h⟩ := of_ok h
  have hq : q.1.func = [] := by
    rcases hp with rfl | ⟨p, m, rfl⟩
    · unfold calls at h1; cases h1; exact hf
    · rw [calls_append] at h1
      obtain ⟨a, _, h1⟩ := of_ok h1
      rw [calls] at h1
      obtain ⟨b, h2, h1⟩ := of_ok h1
      unfold calls at h1
      cases h1
      exact run_func num blank sizes _ _ _ _ _ h2
  rw [calls_queue, hq, List.nil_append, calls] at h
  obtain ⟨r, h2, h⟩ := of_ok h
  unfold calls at h
  cases h
  rw [output_eq num blank sizes name keys [] _ _ (by simp)] at h2
  obtain ⟨s, h3, h2⟩ := of_ok h2
  obtain ⟨w, h4, h2⟩ := of_ok h2
  cases h2
  obtain ⟨ho, _, hsf⟩ := sortAll_fields keys _ _ h3
  have ho' : s.outfix = name := ho
  by_cases hop : ∀ g ∈ s.groups, outName num name g ∉ openNames s
  · rw [startSingle_ok _ _ _ _ _ hop] at h4
    cases h4
    rw [finish_eq num blank sizes s _ hsf (by rw [ho']; exact hn), ho', startSingle_ok _ _ _ _ _ hop, Res.ok_bind]
    exact congrArg Res.ok (wrote_again _ _ _ _ _ _)
  · rw [startSingle_ub _ _ _ _ _ hop] at h4
    cases h4

/-! One group of files. -/

theorem dealTo_append (a b : List (Held T)) : ∀ l, dealTo l (a ++ b) = dealTo l a ++ dealTo (l.drop (tracesOf a).length) b := by
  induction a with
  | nil => intro l; simp [dealTo, tracesOf]
  | cons x a ih =>
    intro l
    simp only [List.cons_append, dealTo, ih, tracesOf, List.flatMap_cons, List.length_append, List.drop_drop]

theorem dealTo_cut (a : List (Held T)) : ∀ l l', l.take (tracesOf a).length = l'.take (tracesOf a).length →
    dealTo l a = dealTo l' a := by
  induction a with
  | nil => intro l l' _; rfl
  | cons x a ih =>
    intro l l' h
    simp only [tracesOf, List.flatMap_cons, List.length_append] at h
    simp only [dealTo]
    have h1 := congrArg (List.take x.traces.length) h
    rw [List.take_take, List.take_take, Nat.min_eq_left (by omega)] at h1
    have h2 := congrArg (List.drop x.traces.length) h
    rw [List.drop_take, List.drop_take, Nat.add_sub_cancel_left] at h2
    rw [h1, ih _ _ h2]

theorem dealTo_traces (a : List (Held T)) : ∀ l, (dealTo l a).map Held.traces = a.map Held.traces := by
  induction a with
  | nil => intro l; rfl
  | cons x a ih => intro l; simp [dealTo, ih]

theorem dealTo_names (a : List (Held T)) : ∀ l, (dealTo l a).map Held.name = a.map Held.name := by
  induction a with
  | nil => intro l; rfl
  | cons x a ih => intro l; simp [dealTo, ih]

theorem dealTo_length (a : List (Held T)) (l : List Nat) : (dealTo l a).length = a.length := by
  have := congrArg List.length (dealTo_names a l)
  simpa using this

theorem dealTo_tracesOf (a : List (Held T)) (l : List Nat) : tracesOf (dealTo l a) = tracesOf a := by
  rw [tracesOf, tracesOf, List.flatMap_def, List.flatMap_def, dealTo_traces]

theorem dealTo_twice (a : List (Held T)) : ∀ l l', dealTo l (dealTo l' a) = dealTo l a := by
  induction a with
  | nil => intro l l'; rfl
  | cons x a ih => intro l l'; simp [dealTo, ih]

theorem dealTo_pos (a : List (Held T)) : ∀ l : List Nat, l.length = (tracesOf a).length → posOf (dealTo l a) = l := by
  induction a with
  | nil => intro l h; exact (List.length_eq_zero_iff.1 h).symm
  | cons x a ih =>
    intro l h
    simp only [tracesOf, List.flatMap_cons, List.length_append] at h
    have := ih (l.drop x.traces.length) (by rw [List.length_drop, h]; simp [tracesOf])
    simp only [posOf] at this
    simp only [posOf, dealTo, List.flatMap_cons, this, List.take_append_drop]

/-- Files of one kind. -/
def base (key : Key) (files : List (Name × List T)) : List (Held T) := files.map fun f => ⟨f.1, key, f.2, []⟩

/-- All traces of the files. -/
def allOf (files : List (Name × List T)) : List T := files.flatMap Prod.snd

theorem base_traces (key : Key) (files : List (Name × List T)) : (base key files).map Held.traces = files.map Prod.snd := by
  simp [base, Function.comp_def]

theorem base_names (key : Key) (files : List (Name × List T)) : (base key files).map Held.name = files.map Prod.fst := by
  simp [base, Function.comp_def]

theorem base_tracesOf (key : Key) (files : List (Name × List T)) : tracesOf (base key files) = allOf files := by
  rw [tracesOf, List.flatMap_def, base_traces, allOf, List.flatMap_def]

/-- A set with one group of files. -/
def one (key : Key) (files : List (Name × List T)) (p : List Nat) (kept : List Name) (outfix : Name) (msg : List Char)
    (func : List (Op T)) : S T := ⟨[(key, dealTo p (base key files))], kept, outfix, msg, func⟩

theorem one_open (key : Key) (files : List (Name × List T)) (p : List Nat) (kept : List Name) (outfix : Name) (msg : List Char)
    (func : List (Op T)) : openNames (one key files p kept outfix msg func) = files.map Prod.fst ++ kept := by
  simp [openNames, one, dealTo_names, base_names]

theorem addAll_more (fs : FS T) (key : Key) (outfix : Name) (more : List (Name × List T)) :
    ∀ files : List (Name × List T), files ≠ [] → ((files ++ more).map Prod.fst).Nodup →
      (∀ f ∈ more, isSegy f.1 = true ∧ ∃ t, fs f.1 = some ⟨key, t, f.2⟩) →
      addAll fs (one key files (List.range (allOf files).length) [] outfix defaultMsg []) (more.map Prod.fst)
        = .ok (one key (files ++ more) (List.range (allOf (files ++ more)).length) [] outfix defaultMsg []) := by
  induction more with
  | nil => intro files _ _ _; simp [addAll]
  | cons f more ih =>
    intro files hne hnd hf
    obtain ⟨hs, t, ht⟩ := hf f (by simp)
    have hnot : f.1 ∉ files.map Prod.fst := by
      rw [List.map_append, List.nodup_append] at hnd
      intro hm
      exact hnd.2.2 _ hm f.1 (by simp) rfl
    rw [List.map_cons, addAll]
    have ha : add fs (one key files (List.range (allOf files).length) [] outfix defaultMsg []) f.1
        = .ok (one key (files ++ [f]) (List.range (allOf (files ++ [f])).length) [] outfix defaultMsg []) := by
      unfold add
      rw [ht]
      simp only [hs, if_true, one_open, List.append_nil, if_neg hnot]
      have hi : insertFile f.1 (⟨key, t, f.2⟩ : Seg T) [(key, dealTo (List.range (allOf files).length) (base key files))]
          = [(key, dealTo (List.range (allOf (files ++ [f])).length) (base key (files ++ [f])))] := by
        simp only [insertFile, if_true, dealTo_tracesOf, base_tracesOf]
        have hb : base key (files ++ [f]) = base key files ++ [⟨f.1, key, f.2, []⟩] := by simp [base]
        have hlen : (allOf (files ++ [f])).length = (allOf files).length + f.2.length := by simp [allOf]
        rw [hb, dealTo_append, base_tracesOf, hlen]
        have e1 : dealTo (List.range ((allOf files).length + f.2.length)) (base key files)
            = dealTo (List.range (allOf files).length) (base key files) := by
          apply dealTo_cut
          rw [base_tracesOf, List.take_range, List.take_range, Nat.min_eq_left (by omega), Nat.min_self]
        have e2 : (List.range ((allOf files).length + f.2.length)).drop (allOf files).length
            = (List.range f.2.length).map ((allOf files).length + ·) := by
          rw [List.range_add, List.drop_left' (by simp)]
        rw [e1, e2]
        simp only [dealTo]
        rw [List.take_of_length_le (by simp)]
      simp only [one, hi]
    rw [ha, Res.ok_bind, ih (files ++ [f]) (by simp) (by simpa using hnd) (fun g hg => hf g (by simp [hg]))]
    simp

theorem addAll_one (fs : FS T) (key : Key) (outfix : Name) (files : List (Name × List T)) (hne : files ≠ [])
    (hnd : (files.map Prod.fst).Nodup) (hf : ∀ f ∈ files, isSegy f.1 = true ∧ ∃ t, fs f.1 = some ⟨key, t, f.2⟩) :
    addAll fs ⟨[], [], outfix, defaultMsg, []⟩ (files.map Prod.fst)
      = .ok (one key files (List.range (allOf files).length) [] outfix defaultMsg []) := by
  cases files with
  | nil => exact absurd rfl hne
  | cons f more =>
    obtain ⟨hs, t, ht⟩ := hf f (by simp)
    have ha : add fs (⟨[], [], outfix, defaultMsg, []⟩ : S T) f.1
        = .ok (one key [f] (List.range (allOf [f]).length) [] outfix defaultMsg []) := by
      unfold add
      rw [ht]
      simp only [hs, if_true]
      rw [if_neg (by simp [openNames])]
      simp only [one, insertFile, base, allOf, List.map_cons, List.map_nil, dealTo, List.flatMap_cons, List.flatMap_nil,
        List.append_nil]
      rw [List.take_of_length_le (by simp)]
    rw [List.map_cons, addAll, ha, Res.ok_bind,
      addAll_more fs key outfix more [f] (by simp) (by simpa using hnd) fun g hg => hf g (by simp [hg])]
    rfl

/-- The local trace numbers of the files. -/
def numbers (files : List (Name × List T)) : List Nat := localNumbers files.length 0 (files.map Prod.snd)

theorem numbers_length (files : List (Name × List T)) : (numbers files).length = (allOf files).length := by
  rw [numbers, localNumbers_length, allOf, List.flatMap_def]

/-- The positions after sorts. -/
def placed (files : List (Name × List T)) (p : List Nat) (keys : List (T → Nat)) : List Nat :=
  match keys.getLast? with
  | none => p
  | some k => ranks k (numbers files) (allOf files)

theorem startSubset_one (key : Key) (files : List (Name × List T)) (p : List Nat) (kept : List Name) (outfix : Name)
    (msg : List Char) (func : List (Op T)) (k : T → Nat) (h3 : 3 ≤ (allOf files).length ∨ allOf files = []) :
    startSubset k (one key files p kept outfix msg func)
      = .ok (one key files (ranks k (numbers files) (allOf files)) (kept ++ files.map Prod.fst) outfix msg func) := by
  rw [startSubset, if_neg (by simp [one])]
  simp only [one]
  have hg : sortGroup k (key, dealTo p (base key files))
      = .ok (key, dealTo (ranks k (numbers files) (allOf files)) (base key files)) := by
    unfold sortGroup
    simp only [dealTo_length, dealTo_traces, dealTo_tracesOf, base_traces, base_tracesOf, dealTo_twice]
    have : (base key files).length = files.length := by simp [base]
    rw [this, show localNumbers files.length 0 (files.map Prod.snd) = numbers files from rfl,
      sortStep_eq k _ _ (numbers_length files) h3]
    rfl
  simp only [sortGroups, hg, Res.ok_bind]
  simp [dealTo_names, base_names]

theorem sortAll_one (key : Key) (files : List (Name × List T)) (outfix : Name) (msg : List Char) (func : List (Op T))
    (keys : List (T → Nat)) (h3 : keys = [] ∨ 3 ≤ (allOf files).length ∨ allOf files = []) :
    ∀ (p : List Nat) (kept : List Name), (∀ n ∈ kept, n ∈ files.map Prod.fst) →
      ∃ kept', (∀ n ∈ kept', n ∈ files.map Prod.fst) ∧
        sortAll keys (one key files p kept outfix msg func) = .ok (one key files (placed files p keys) kept' outfix msg func) := by
  induction keys with
  | nil => intro p kept hk; exact ⟨kept, hk, rfl⟩
  | cons k keys ih =>
    intro p kept hk
    have h3' : 3 ≤ (allOf files).length ∨ allOf files = [] := by
      rcases h3 with h | h
      · cases h
      · exact h
    obtain ⟨kept', hk', h⟩ := ih (Or.inr h3') (ranks k (numbers files) (allOf files)) (kept ++ files.map Prod.fst) (by
      intro n hn
      rcases List.mem_append.1 hn with hn | hn
      · exact hk n hn
      · exact hn)
    refine ⟨kept', hk', ?_⟩
    rw [sortAll, startSubset_one _ _ _ _ _ _ _ _ h3', Res.ok_bind, h]
    congr 2
    unfold placed
    cases keys with
    | nil => rfl
    | cons a l => rfl

/-- What comes after the prefix in the name of the output. -/
def suffix (num : Int → List Char) (key : Key) (n : Nat) : Name :=
  if n = 1 then ".segy".toList else decimal key.1 ++ ['_'] ++ num key.2 ++ ".segy".toList

theorem outName_one (num : Int → List Char) (name : Name) (key : Key) (files : List (Name × List T)) (p : List Nat) :
    outName num name (key, dealTo p (base key files)) = name ++ suffix num key files.length := by
  unfold outName suffix
  simp only [dealTo_length, base, List.length_map]
  split <;> simp

/-- An output of a set with one group of files, sorts and single-trace operations queued. -/
theorem output_one (num : Int → List Char) (blank : T) (sizes : List T → List Nat) (key : Key) (files : List (Name × List T))
    (p : List Nat) (hp : p.length = (allOf files).length) (kept : List Name) (hk : ∀ n ∈ kept, n ∈ files.map Prod.fst) (outfix name : Name)
    (msg : List Char) (keys : List (T → Nat)) (h3 : keys = [] ∨ 3 ≤ (allOf files).length ∨ allOf files = []) (fns : List (T → T))
    (hn : name ++ suffix num key files.length ∉ files.map Prod.fst) (fs : FS T) :
    ∃ kept' names, (∀ n ∈ kept', n ∈ files.map Prod.fst) ∧
      output num blank sizes name (one key files p kept outfix msg (keys.map Op.sort ++ fns.map Op.single)) fs
        = .ok (Function.update fs (name ++ suffix num key files.length)
            (some ⟨key, msg, (written (placed files p keys) (allOf files)).map (through fns)⟩),
          one key files (placed files p keys) kept' name msg [], names) := by
  obtain ⟨kept', hk', hs⟩ := sortAll_one key files name msg [] keys h3 p kept hk
  refine ⟨kept', if keys = [] then [name ++ suffix num key files.length] else [], hk', ?_⟩
  rw [output_eq num blank sizes name keys fns _ fs rfl]
  have : ({ one key files p kept outfix msg (keys.map Op.sort ++ fns.map Op.single) with outfix := name, func := [] } : S T)
      = one key files p kept name msg [] := rfl
  rw [this, hs, Res.ok_bind, startSingle_ok]
  · have hl : (placed files p keys).length = (allOf files).length := by
      unfold placed
      split
      · exact hp
      · exact ranks_length _ _ _ (numbers_length files)
    have hg : (one key files (placed files p keys) kept' name msg []).groups
        = [(key, dealTo (placed files p keys) (base key files))] := rfl
    rw [hg]
    simp only [wrote, List.foldl_cons, List.foldl_nil, Res.ok_bind, outName_one, List.map_cons, List.map_nil]
    congr 3
    unfold outSeg
    simp only [dealTo_tracesOf, base_tracesOf]
    rw [dealTo_pos _ _ (by rw [base_tracesOf]; exact hl)]
    have hc : ((fns ++ [id]).map Op.single).map Op.core = (fns ++ [id]).map (Flow.Op.single (T := T)) := by
      rw [List.map_map]; rfl
    have ht : through (fns ++ [id]) = through fns := funext fun t => through_noop fns t
    rw [hc, blockSingle_eq, ht, written_map]
    rfl
  · intro g hg
    have : g = (key, dealTo (placed files p keys) (base key files)) := by simpa [one] using hg
    rw [this, outName_one, one_open]
    simp only [List.mem_append, not_or]
    exact ⟨hn, fun h => hn (hk' _ h)⟩

/-- The calls for several outputs, each after some sorts. -/
theorem calls_one (num : Int → List Char) (blank : T) (sizes : List T → List Nat) (key : Key) (files : List (Name × List T))
    (msg : List Char) (segs : List (List (T → Nat) × Name)) :
    ∀ (p : List Nat) (kept : List Name) (outfix : Name) (fs : FS T), p.length = (allOf files).length →
      (∀ n ∈ kept, n ∈ files.map Prod.fst) →
      (3 ≤ (allOf files).length ∨ ∀ s ∈ segs, s.1 = []) → (segs.map Prod.snd).Nodup →
      (∀ s ∈ segs, s.2 ++ suffix num key files.length ∉ files.map Prod.fst) →
      ∃ p' kept' fs', (∀ n ∈ kept', n ∈ files.map Prod.fst) ∧ p'.length = (allOf files).length ∧
        calls num blank sizes (segs.flatMap fun s => (s.1.map Op.sort).map Call.queue ++ [.output s.2])
            (one key files p kept outfix msg []) fs
          = .ok (one key files p' kept' ((segs.map Prod.snd).getLast?.getD outfix) msg [], fs') ∧
        p' = placed files p (segs.flatMap Prod.fst) ∧
        (∀ i (h : i < segs.length), fs' (segs[i].2 ++ suffix num key files.length)
          = some ⟨key, msg, written (placed files p ((segs.take (i + 1)).flatMap Prod.fst)) (allOf files)⟩) ∧
        ∀ n, n ∉ segs.map (fun s => s.2 ++ suffix num key files.length) → fs' n = fs n := by
  have hpl : ∀ (p : List Nat) (a b : List (T → Nat)), placed files (placed files p a) b = placed files p (a ++ b) := by
    intro p a b
    unfold placed
    rw [List.getLast?_append]
    cases b.getLast? <;> rfl
  induction segs with
  | nil =>
    intro p kept outfix fs hp hk _ _ _
    exact ⟨p, kept, fs, hk, hp, rfl, rfl, by simp, by simp⟩
  | cons s segs ih =>
    intro p kept outfix fs hp hk h3 hnd hn
    have h3s : s.1 = [] ∨ 3 ≤ (allOf files).length ∨ allOf files = [] := by
      rcases h3 with h | h
      · exact Or.inr (Or.inl h)
      · exact Or.inl (h s (by simp))
    obtain ⟨k1, names, hk1, ho⟩ := output_one num blank sizes key files p hp kept hk outfix s.2 msg s.1 h3s [] (hn s (by simp)) fs
    have hid : ∀ l : List T, l.map (through []) = l := fun l => by
      have : through ([] : List (T → T)) = id := rfl
      rw [this, List.map_id]
    rw [hid, List.map_nil, List.append_nil] at ho
    simp only [List.map_cons, List.nodup_cons] at hnd
    have hl : (placed files p s.1).length = (allOf files).length := by
      unfold placed
      split
      · exact hp
      · exact ranks_length _ _ _ (numbers_length files)
    obtain ⟨p', kept', fs', hk', hp', hc, hpe, hi, hoff⟩ := ih (placed files p s.1) k1 s.2
      (Function.update fs (s.2 ++ suffix num key files.length) (some ⟨key, msg, written (placed files p s.1) (allOf files)⟩))
      hl hk1 (h3.imp_right fun h x hx => h x (by simp [hx])) hnd.2 (fun x hx => hn x (by simp [hx]))
    have hs : s.2 ++ suffix num key files.length ∉ segs.map (fun s => s.2 ++ suffix num key files.length) := by
      intro hm
      obtain ⟨x, hx, he⟩ := List.mem_map.1 hm
      exact hnd.1 (List.mem_map.2 ⟨x, hx, List.append_cancel_right he⟩)
    refine ⟨p', kept', fs', hk', hp', ?_, ?_, ?_, ?_⟩
    · rw [List.flatMap_cons, List.append_assoc, calls_queue]
      have : ({ one key files p kept outfix msg [] with func := (one key files p kept outfix msg []).func ++ s.1.map Op.sort } : S T)
          = one key files p kept outfix msg (s.1.map Op.sort) := rfl
      rw [this, List.singleton_append, calls, ho, Res.ok_bind]
      dsimp only
      rw [hc, List.map_cons, List.getLast?_cons]
      rfl
    · rw [hpe, hpl, List.flatMap_cons]
    · intro i h
      cases i with
      | zero =>
        have := hoff _ hs
        simp only [List.getElem_cons_zero, Nat.zero_add, List.take_succ_cons, List.take_zero, List.flatMap_cons, List.flatMap_nil,
          List.append_nil]
        rw [this, Function.update_self]
      | succ i =>
        have := hi i (by simpa using h)
        rw [hpl] at this
        simpa using this
    · intro n hno
      simp only [List.map_cons, List.mem_cons, not_or] at hno
      rw [hoff n hno.2, Function.update_of_ne hno.1]

/-- The part of C85 that holds for several outputs: a set made from files of one kind, a text, and any number of outputs with different
names, each after any number of sorts (none at all if there are fewer than three traces). At the end every output file has samples and
interval of the input, the text, and all the traces; they are in the order of the sort queued last before that output, in the order of the input
if there was none; for one file, traces with equal keys are in the order of the file. Every other file is unchanged.

Missing: single-trace operations (`C85_lost_refuted`) and gathers; for other kinds of sets see `C85_groups_refuted`. -/
theorem C85_outputs_partial (num : Int → List Char) (blank : T) (sizes : List T → List Nat) (key : Key)
    (files : List (Name × List T)) (hne : files ≠ []) (hnd : (files.map Prod.fst).Nodup) (fs : FS T)
    (hf : ∀ f ∈ files, isSegy f.1 = true ∧ ∃ t, fs f.1 = some ⟨key, t, f.2⟩) (msg : List Char)
    (segs : List (List (T → Nat) × Name)) (hsd : (segs.map Prod.snd).Nodup) (hsn : ∀ s ∈ segs, s.2 ≠ [])
    (suf : Name) (hsuf : suf = if files.length = 1 then ".segy".toList
      else decimal key.1 ++ ['_'] ++ num key.2 ++ ".segy".toList)
    (hno : ∀ s ∈ segs, s.2 ++ suf ∉ files.map Prod.fst)
    (h3 : 3 ≤ (files.flatMap Prod.snd).length ∨ ∀ s ∈ segs, s.1 = []) :
    ∃ fs', life num blank sizes (files.map Prod.fst) []
        (.text msg :: segs.flatMap fun s => (s.1.map Op.sort).map Call.queue ++ [.output s.2]) fs = .ok fs' ∧
      (∀ i (h : i < segs.length), ∃ out, fs' (segs[i].2 ++ suf) = some ⟨key, msg, out⟩ ∧ out.Perm (files.flatMap Prod.snd) ∧
        (((segs.take (i + 1)).flatMap Prod.fst) = [] → out = files.flatMap Prod.snd) ∧
        ∀ k, ((segs.take (i + 1)).flatMap Prod.fst).getLast? = some k → out.Pairwise (fun a b => k a ≤ k b) ∧
          (files.length = 1 → out = (files.flatMap Prod.snd).insertionSort fun a b => k a ≤ k b)) ∧
      ∀ n, n ∉ segs.map (fun s => s.2 ++ suf) → fs' n = fs n := by
  have hsx : suf = suffix num key files.length := hsuf
  obtain ⟨p', kept', fs', hk', hp', hc, hpe, hi, hoff⟩ := calls_one num blank sizes key files msg segs
    (List.range (allOf files).length) [] [] fs (by simp) (by simp) h3 hsd (by rw [← hsx]; exact hno)
  rw [← hsx] at hi hoff
  refine ⟨fs', ?_, ?_, hoff⟩
  · unfold life
    rw [addAll_one fs key [] files hne hnd hf, Res.ok_bind, calls]
    have : ({ one key files (List.range (allOf files).length) [] [] defaultMsg [] with outmsg := msg } : S T)
        = one key files (List.range (allOf files).length) [] [] msg [] := rfl
    rw [this, hc, Res.ok_bind]
    dsimp only
    rcases List.eq_nil_or_concat segs with hs | ⟨l, s, hs⟩
    · subst hs
      exact if_pos rfl
    · have hlast : (segs.map Prod.snd).getLast?.getD [] = s.2 := by rw [hs]; simp
      have hmem : s ∈ segs := by rw [hs]; simp
      rw [hlast, finish_eq _ _ _ _ _ rfl (hsn s hmem)]
      have hno' := hno s hmem
      rw [startSingle_ok]
      · have hg : (one key files p' kept' s.2 msg []).groups = [(key, dealTo p' (base key files))] := rfl
        have ho : (one key files p' kept' s.2 msg []).outfix = s.2 := rfl
        rw [hg, ho]
        simp only [wrote, List.foldl_cons, List.foldl_nil, Res.ok_bind, outName_one]
        congr 1
        rw [← hsx, Function.update_eq_iff]
        refine ⟨?_, fun _ _ => rfl⟩
        have hlen : l.length < segs.length := by rw [hs]; simp
        have := hi l.length hlen
        have hget : segs[l.length] = s := by simp [hs]
        have htk : segs.take (l.length + 1) = segs := List.take_of_length_le (by rw [hs]; simp)
        rw [hget, htk, ← hpe] at this
        rw [this]
        unfold outSeg
        simp only [dealTo_tracesOf, base_tracesOf]
        rw [dealTo_pos _ _ (by rw [base_tracesOf]; exact hp')]
        simp [blockSingle, Op.core, one]
      · intro g hg
        have : g = (key, dealTo p' (base key files)) := by simpa [one] using hg
        have ho : (one key files p' kept' s.2 msg []).outfix = s.2 := rfl
        rw [this, ho, outName_one, one_open, ← hsx]
        simp only [List.mem_append, not_or]
        exact ⟨hno', fun h => hno' (hk' _ h)⟩
  · intro i h
    refine ⟨_, hi i h, ?_, ?_, ?_⟩
    · refine written_perm _ _ ?_
      unfold placed
      split
      · simp
      · exact ranks_length _ _ _ (numbers_length files)
    · intro he
      rw [he]
      exact written_range _ (List.range (allOf files).length) List.pairwise_lt_range (by simp)
    · intro k hk
      unfold placed
      rw [hk]
      refine ⟨written_sorted k _ _ (numbers_length files), ?_⟩
      intro h1
      obtain ⟨f, rfl⟩ := List.length_eq_one_iff.1 h1
      have hnum : numbers [f] = List.range (allOf [f]).length := by simp [numbers, localNumbers, allOf]
      simp only [hnum]
      exact written_ranks k (allOf [f])

/-- Two outputs of the set of one file: sorted by the number, then by its negative. -/
example : (look "a.segy".toList (life (fun _ => []) 0 (fun _ => []) ["in.segy".toList] []
      [.text [], .queue (.sort id), .output "a".toList, .queue (.sort (10 - ·)), .output "b".toList] exFS) = some [3, 4, 5]) ∧
    look "b.segy".toList (life (fun _ => []) 0 (fun _ => []) ["in.segy".toList] []
      [.text [], .queue (.sort id), .output "a".toList, .queue (.sort (10 - ·)), .output "b".toList] exFS) = some [5, 4, 3] := by
  decide +kernel

example : ∃ fs', life (fun _ => []) 0 (fun _ => []) (["in.segy".toList]) []
    (.text [] :: [([id], "a".toList), ([fun t => 10 - t], "b".toList)].flatMap
      fun s : List (Nat → Nat) × Name => (s.1.map Op.sort).map Call.queue ++ [.output s.2]) exFS = .ok fs' := by
  obtain ⟨fs', h, _⟩ := C85_outputs_partial (fun _ => []) 0 (fun _ => []) (1, 4) [("in.segy".toList, [5, 3, 4])] (by simp)
    (by simp) exFS (by
      intro f hf
      have : f = ("in.segy".toList, [5, 3, 4]) := by simpa using hf
      subst this
      exact ⟨by decide +kernel, [], by decide +kernel⟩) []
    [([id], "a".toList), ([fun t => 10 - t], "b".toList)] (by decide +kernel) (by decide +kernel) _ rfl (by decide +kernel)
    (Or.inl (by decide))
  exact ⟨fs', h⟩

/-- The part of C85 that holds for a set made with a prefix for its output, if `output` is not called: the end of the set
writes it once. Sorts come before single-trace operations (`C33_late_refuted`). The traces are ordered by the last sort, every
operation is applied once, in order, the text and samples and interval are kept, no other file is touched.

Missing: gathers, other orders of operations. -/
theorem C85_once_partial (num : Int → List Char) (blank : T) (sizes : List T → List Nat) (key : Key)
    (files : List (Name × List T)) (hne : files ≠ []) (hnd : (files.map Prod.fst).Nodup) (fs : FS T)
    (hf : ∀ f ∈ files, isSegy f.1 = true ∧ ∃ t, fs f.1 = some ⟨key, t, f.2⟩) (msg : List Char) (keys : List (T → Nat))
    (fns : List (T → T)) (name : Name) (hn : name ≠ [])
    (suf : Name) (hsuf : suf = if files.length = 1 then ".segy".toList
      else decimal key.1 ++ ['_'] ++ num key.2 ++ ".segy".toList)
    (hno : name ++ suf ∉ files.map Prod.fst) (h3 : 3 ≤ (files.flatMap Prod.snd).length ∨ keys = []) :
    ∃ ord, life num blank sizes (files.map Prod.fst) name
        (.text msg :: (keys.map Op.sort ++ fns.map Op.single).map Call.queue) fs
          = .ok (Function.update fs (name ++ suf) (some ⟨key, msg, ord.map fun t => fns.foldl (fun x f => f x) t⟩)) ∧
      ord.Perm (files.flatMap Prod.snd) ∧ (keys = [] → ord = files.flatMap Prod.snd) ∧
      ∀ k, keys.getLast? = some k → ord.Pairwise (fun a b => k a ≤ k b) ∧
        (files.length = 1 → ord = (files.flatMap Prod.snd).insertionSort fun a b => k a ≤ k b) := by
  have hsx : suf = suffix num key files.length := hsuf
  have hth : ∀ (fns : List (T → T)) (t : T), through fns t = fns.foldl (fun x f => f x) t := by
    intro fns
    induction fns with
    | nil => intro t; rfl
    | cons f fns ih => intro t; exact ih (f t)
  have hth' : through fns = fun t => fns.foldl (fun x f => f x) t := funext (hth fns)
  obtain ⟨kept', names, _, ho⟩ := output_one num blank sizes key files (List.range (allOf files).length) (by simp) [] (by simp)
    name name msg keys (h3.symm.imp_right Or.inl) fns (by rw [← hsx]; exact hno) fs
  refine ⟨written (placed files (List.range (allOf files).length) keys) (allOf files), ?_, ?_, ?_, ?_⟩
  · unfold life
    rw [addAll_one fs key name files hne hnd hf, Res.ok_bind, calls]
    have h1 : ({ one key files (List.range (allOf files).length) [] name defaultMsg [] with outmsg := msg } : S T)
        = one key files (List.range (allOf files).length) [] name msg [] := rfl
    have h2 := calls_queue num blank sizes (keys.map Op.sort ++ fns.map Op.single) [] fs
      (one key files (List.range (allOf files).length) [] name msg [])
    rw [List.append_nil, calls] at h2
    rw [h1, h2, Res.ok_bind]
    dsimp only
    rw [finish, if_neg (by simpa [one] using hn)]
    have h3 : ({ one key files (List.range (allOf files).length) [] name msg [] with
          func := (one key files (List.range (allOf files).length) [] name msg []).func ++ (keys.map Op.sort ++ fns.map Op.single) } : S T)
        = one key files (List.range (allOf files).length) [] name msg (keys.map Op.sort ++ fns.map Op.single) := rfl
    rw [h3]
    have h4 : (one key files (List.range (allOf files).length) [] name msg (keys.map Op.sort ++ fns.map Op.single)).outfix = name := rfl
    rw [h4, ho, Res.ok_bind, hsx, hth']
  · refine written_perm _ _ ?_
    unfold placed
    split
    · simp
    · exact ranks_length _ _ _ (numbers_length files)
  · intro he
    rw [he]
    exact written_range _ (List.range (allOf files).length) List.pairwise_lt_range (by simp)
  · intro k hk
    unfold placed
    rw [hk]
    refine ⟨written_sorted k _ _ (numbers_length files), ?_⟩
    intro h1
    obtain ⟨f, rfl⟩ := List.length_eq_one_iff.1 h1
    have hnum : numbers [f] = List.range (allOf [f]).length := by simp [numbers, localNumbers, allOf]
    simp only [hnum]
    exact written_ranks k (allOf [f])

example : look "out.segy".toList (life (fun _ => []) 0 (fun _ => []) ["in.segy".toList] "out".toList
    [.queue (.sort id), .queue (.single (· + 1)), .queue (.single (· * 2))] exFS) = some [8, 10, 12] := by decide +kernel

example : ∃ fs', life (fun _ => []) 0 (fun _ => []) ["in.segy".toList] "out".toList
    (.text [] :: ([id].map Op.sort ++ [(· + 1)].map Op.single).map Call.queue) exFS = .ok fs' := by
  obtain ⟨ord, h, _⟩ := C85_once_partial (fun _ => []) 0 (fun _ => []) (1, 4) [("in.segy".toList, [5, 3, 4])] (by simp)
    (by simp) exFS (by
      intro f hf
      have : f = ("in.segy".toList, [5, 3, 4]) := by simpa using hf
      subst this
      exact ⟨by decide +kernel, [], by decide +kernel⟩) [] [id] [(· + 1)] "out".toList (by decide) _ rfl (by decide +kernel)
    (Or.inl (by decide))
  exact ⟨_, h⟩

/-! Gathers. -/

/-- The file that gathers are written to. -/
abbrev gtemp : Name := "gtemp.segy".toList

/-- The set after the files have been put together. -/
theorem join_one (num : Int → List Char) (key : Key) (files : List (Name × List T)) (h1 : 1 < files.length) (p : List Nat)
    (hp : p.length = (allOf files).length) (kept : List Name) (outfix : Name) (msg : List Char) (func : List (Op T))
    (hseg : isSegy ("temp".toList ++ suffix num key files.length) = true)
    (hno : "temp".toList ++ suffix num key files.length ∉ files.map Prod.fst ++ kept) (fs : FS T) :
    join num fs (one key files p kept outfix msg func)
      = .ok (Function.update fs ("temp".toList ++ suffix num key files.length) (some ⟨key, msg, written p (allOf files)⟩),
          one key [("temp".toList ++ suffix num key files.length, written p (allOf files))]
            (List.range (allOf files).length) kept outfix defaultMsg func) := by
  unfold join
  have hl : ((one key files p kept outfix msg func).groups.flatMap Prod.snd).length = files.length := by
    simp [one, dealTo_length, base]
  have hg : (one key files p kept outfix msg func).groups = [(key, dealTo p (base key files))] := rfl
  rw [hl, if_pos h1, startSingle_ok]
  · rw [hg]
    simp only [wrote, List.foldl_cons, List.foldl_nil, Res.ok_bind, outName_one, List.map_cons, List.map_nil, addAll]
    have ho : outSeg [Op.single id] (one key files p kept outfix msg func) (key, dealTo p (base key files))
        = ⟨key, msg, written p (allOf files)⟩ := by
      unfold outSeg
      simp only [dealTo_tracesOf, base_tracesOf]
      rw [dealTo_pos _ _ (by rw [base_tracesOf]; exact hp)]
      simp [blockSingle, Op.core, one]
    rw [ho]
    unfold add
    rw [Function.update_self]
    simp only [hseg, if_true]
    rw [if_neg (by
      simp only [openNames, List.flatMap_nil, List.nil_append, one]
      exact fun h => hno (List.mem_append_right _ h)), Res.ok_bind, Res.ok_bind]
    have hwl : (written p (allOf files)).length = (allOf files).length := (written_perm _ _ hp).length_eq
    simp only [one, insertFile, base, List.map_cons, List.map_nil, dealTo, hwl]
    rw [List.take_of_length_le (by simp)]
  · intro g hgm
    rw [hg, List.mem_singleton] at hgm
    rw [hgm, outName_one, one_open]
    exact hno

/-- A gather operation and single-trace operations after it: what is in the temporary file. -/
theorem gatherLoop_singles (blank : T) (g : List T → List T) (fns : List (T → T)) (ts : List T) (ns : List Nat) :
    ∀ off, off + ns.sum ≤ ts.length →
      gatherLoop blank (Flow.Op.gather g :: (fns ++ [id]).map Flow.Op.single) ts off ns
        = .ok (((applied.cut ns (ts.drop off)).flatMap g).map (through fns)) := by
  induction ns with
  | nil => intro off _; rfl
  | cons n ns ih =>
    intro off h
    rw [List.sum_cons] at h
    unfold gatherLoop
    rw [readBlock_in blank ts off n (by omega), Res.ok_bind]
    have hb : blockGather (Flow.Op.gather g :: (fns ++ [id]).map Flow.Op.single) ((ts.drop off).take n)
        = .ok ((g ((ts.drop off).take n)).map (through fns)) := by
      have : ∀ (l : List (T → T)) (f : T → T) (b : List T),
          blockGather (Flow.Op.gather g :: (f :: l).map Flow.Op.single) b = .ok ((g b).map (through (f :: l))) := by
        intro l f b
        simp only [List.map_cons, blockGather, blockSingle_eq, List.map_map]
        rfl
      have ht : through (fns ++ [id]) = through fns := funext fun t => through_noop fns t
      obtain ⟨f, l, hl⟩ : ∃ f l, fns ++ [id] = f :: l := by
        cases fns with
        | nil => exact ⟨id, [], rfl⟩
        | cons a b => exact ⟨a, b ++ [id], rfl⟩
      rw [hl, this, ← hl, ht]
    rw [hb, Res.ok_bind, ih (off + n) (by omega), Res.ok_bind]
    simp [applied.cut, List.drop_drop]

/-- The gathers of one file. -/
theorem startGather_one (num : Int → List Char) (blank : T) (sizes : List T → List Nat) (k : Key → Key) (g : List T → List T)
    (fns : List (T → T)) (key : Key) (n : Name) (ts : List T) (p : List Nat) (kept : List Name) (outfix : Name) (msg : List Char)
    (func : List (Op T)) (hs : (sizes ts).sum ≤ ts.length) (hs0 : sizes ts ≠ []) (hn : n ≠ gtemp) (hk : gtemp ∉ kept) (fs : FS T) :
    startGather num blank sizes (Op.gather k g :: (fns ++ [id]).map Op.single) (one key [(n, ts)] p kept outfix msg func) fs
      = .ok (Function.update fs gtemp (some ⟨k key, [], ((applied.cut (sizes ts) ts).flatMap g).map (through fns)⟩),
          one (k key) [(gtemp, ((applied.cut (sizes ts) ts).flatMap g).map (through fns))]
            (List.range (((applied.cut (sizes ts) ts).flatMap g).map (through fns)).length) kept outfix defaultMsg func, []) := by
  have hj : join num fs (one key [(n, ts)] p kept outfix msg func) = .ok (fs, one key [(n, ts)] p kept outfix msg func) := by
    unfold join
    rw [if_neg (by simp [one, dealTo_length, base])]
  have hall : (((Op.gather k g :: (fns ++ [id]).map Op.single) : List (Op T)).drop 1).all Op.isGather = false := by
    simp [Op.isGather]
  have hfl : (one key [(n, ts)] p kept outfix msg func).groups.flatMap Prod.snd = [⟨n, key, ts, p.take ts.length⟩] := by
    simp [one, base, dealTo]
  have hopen : gtemp ∉ openNames (one key [(n, ts)] p kept outfix msg func) := by
    rw [one_open]
    simp only [List.map_cons, List.map_nil, List.mem_append, List.mem_singleton, not_or]
    exact ⟨fun h => hn h.symm, hk⟩
  have hcore : ((Op.gather k g :: (fns ++ [id]).map Op.single) : List (Op T)).map Op.core
      = Flow.Op.gather g :: (fns ++ [id]).map Flow.Op.single := by
    simp [Op.core, Function.comp_def]
  have hcount : gatherCount (Flow.Op.gather g :: (fns ++ [id]).map (Flow.Op.single (T := T))) = 1 := by
    rw [gatherCount]
    cases fns <;> rfl
  have hkey : outKey ((Op.gather k g :: (fns ++ [id]).map Op.single) : List (Op T)) key = k key := by
    cases fns <;> rfl
  unfold startGather
  rw [hj, Res.ok_bind]
  simp only [hall, Bool.false_eq_true, if_false, hfl, gatherFiles, hcore, hcount, List.replicate_one, List.flatten_cons,
    List.flatten_nil, List.append_nil]
  rw [gatherLoop_singles blank g fns ts _ 0 (by omega), Res.ok_bind, writeSeg, if_neg hopen, Res.ok_bind, Res.ok_bind]
  simp only [List.cons_ne_self, if_false, hs0, hkey, List.drop_zero]
  unfold add
  rw [Function.update_self]
  have hseg : isSegy gtemp = true := by decide +kernel
  simp only [hseg, if_true]
  have hk' : gtemp ∉ openNames ({ one key [(n, ts)] p kept outfix msg func with groups := [] } : S T) := hk
  rw [if_neg hk', Res.ok_bind]
  simp only [one, insertFile, base, List.map_cons, List.map_nil, dealTo]
  rw [List.take_of_length_le (by simp)]

/-- An output with a gather operation and single-trace operations after it. -/
theorem output_gather (num : Int → List Char) (blank : T) (sizes : List T → List Nat) (k : Key → Key) (g : List T → List T)
    (fns : List (T → T)) (key : Key) (n : Name) (ts : List T) (p : List Nat) (kept : List Name) (outfix name : Name)
    (msg : List Char) (hs : (sizes ts).sum ≤ ts.length) (hs0 : sizes ts ≠ []) (hn : n ≠ gtemp) (hk : gtemp ∉ kept)
    (hname : name ≠ "gtemp".toList) (hk' : name ++ ".segy".toList ∉ kept) (fs : FS T) (ts' : List T)
    (hts' : ts' = ((applied.cut (sizes ts) ts).flatMap g).map (through fns)) :
    output num blank sizes name (one key [(n, ts)] p kept outfix msg (Op.gather k g :: fns.map Op.single)) fs
      = .ok (Function.update (Function.update fs gtemp (some ⟨k key, [], ts'⟩)) (name ++ ".segy".toList)
            (some ⟨k key, defaultMsg, ts'.map (through fns)⟩),
          one (k key) [(gtemp, ts')] (List.range ts'.length) kept name defaultMsg [], []) := by
  have hq : (one key [(n, ts)] p kept outfix msg (Op.gather k g :: fns.map Op.single)).func ++ [Op.single id]
      = Op.gather k g :: (fns ++ [id]).map Op.single := by simp [one]
  have hst : ({ one key [(n, ts)] p kept outfix msg (Op.gather k g :: fns.map Op.single) with outfix := name, func := [] } : S T)
      = one key [(n, ts)] p kept name msg [] := rfl
  unfold output
  rw [hq, hst, run.eq_4 (x_5 := by simp),
    startGather_one num blank sizes k g fns key n ts p kept name msg [] hs hs0 hn hk, ← hts', Res.ok_bind]
  obtain ⟨f, l, hl⟩ : ∃ f l, fns ++ [id] = f :: l := by
    cases fns with
    | nil => exact ⟨id, [], rfl⟩
    | cons a b => exact ⟨a, b ++ [id], rfl⟩
  simp only [ne_eq, not_true_eq_false, if_false]
  have hsuf : suffix num (k key) ([(gtemp, ts')] : List (Name × List T)).length = ".segy".toList := rfl
  have hne : name ++ ".segy".toList ≠ gtemp := by
    intro h
    exact hname (List.append_cancel_right (h.trans (show gtemp = "gtemp".toList ++ ".segy".toList by decide)))
  rw [hl, run_singles num blank sizes .gathers (by simp), ← hl, startSingle_ok]
  · have hg : (one (k key) [(gtemp, ts')] (List.range ts'.length) kept name defaultMsg []).groups
        = [(k key, dealTo (List.range ts'.length) (base (k key) [(gtemp, ts')]))] := rfl
    have ho : (one (k key) [(gtemp, ts')] (List.range ts'.length) kept name defaultMsg []).outfix = name := rfl
    rw [hg, ho]
    simp only [wrote, List.foldl_cons, List.foldl_nil, Res.ok_bind, outName_one, hsuf]
    congr 3
    unfold outSeg
    simp only [dealTo_tracesOf, base_tracesOf]
    have ha : allOf [(gtemp, ts')] = ts' := by simp [allOf]
    rw [dealTo_pos _ _ (by rw [base_tracesOf, ha]; simp), ha]
    have hc : ((fns ++ [id]).map Op.single).map Op.core = (fns ++ [id]).map (Flow.Op.single (T := T)) := by
      rw [List.map_map]; rfl
    have ht : through (fns ++ [id]) = through fns := funext fun t => through_noop fns t
    rw [hc, blockSingle_eq, ht, written_range _ _ List.pairwise_lt_range (by simp)]
    rfl
  · intro x hx
    have : x = (k key, dealTo (List.range ts'.length) (base (k key) [(gtemp, ts')])) := by simpa [one] using hx
    have ho : (one (k key) [(gtemp, ts')] (List.range ts'.length) kept name defaultMsg []).outfix = name := rfl
    rw [this, ho, outName_one, one_open, hsuf]
    simp only [List.map_cons, List.map_nil, List.mem_append, List.mem_singleton, not_or]
    exact ⟨hne, hk'⟩

/-- The part of C85 that holds for gathers: a set made from one file, one gather operation (`toAngle`), any number of single-trace operations
and one output. After the output every single-trace operation has been applied twice (`C33_twice_refuted`); the end of the set puts that right:
what the program leaves behind has the gather operation applied once to every gather and every single-trace operation
once, in order. A file `gtemp.segy` with the same traces stays behind; no other file changes.

Missing: several files, several gather operations, sorts, the text (`C85_text_refuted`). -/
theorem C85_gather_partial (num : Int → List Char) (blank : T) (sizes : List T → List Nat) (k : Key → Key) (g : List T → List T)
    (fns : List (T → T)) (key : Key) (n : Name) (hn : n ≠ gtemp) (hseg : isSegy n = true) (fs : FS T) (text : List Char)
    (ts : List T) (hf : fs n = some ⟨key, text, ts⟩) (hs : (sizes ts).sum ≤ ts.length) (hs0 : sizes ts ≠ [])
    (name : Name) (hn0 : name ≠ []) (hname : name ≠ "gtemp".toList) (prog : List (Call T))
    (hprog : prog = .queue (.gather k g) :: (fns.map Op.single).map Call.queue ++ [.output name])
    (out : List T) (hout : out = applied sizes (.gather g :: fns.map Flow.Op.single) ts) :
    (∃ st', (addAll fs ⟨[], [], [], defaultMsg, []⟩ [n] >>= fun st => calls num blank sizes prog st fs)
        = .ok (st', Function.update (Function.update fs gtemp (some ⟨k key, [], out⟩)) (name ++ ".segy".toList)
            (some ⟨k key, defaultMsg, applied sizes (fns.map Flow.Op.single) out⟩))) ∧
    life num blank sizes [n] [] prog fs
        = .ok (Function.update (Function.update fs gtemp (some ⟨k key, [], out⟩)) (name ++ ".segy".toList)
            (some ⟨k key, defaultMsg, out⟩)) := by
  have hts : out = ((applied.cut (sizes ts) ts).flatMap g).map (through fns) := by
    rw [hout, applied, applied_singles]
  have hadd := addAll_one fs key [] [(n, ts)] (by simp) (by simp) (by
    intro f hm
    have : f = (n, ts) := by simpa using hm
    subst this
    exact ⟨hseg, text, hf⟩)
  have ha : allOf [(n, ts)] = ts := by simp [allOf]
  rw [List.map_cons, List.map_nil, ha] at hadd
  have ho := output_gather num blank sizes k g fns key n ts (List.range ts.length) [] [] name defaultMsg hs hs0 hn (by simp) hname
    (by simp) fs out hts
  have hc : calls num blank sizes prog (one key [(n, ts)] (List.range ts.length) [] [] defaultMsg []) fs
      = .ok (one (k key) [(gtemp, out)] (List.range out.length) [] name defaultMsg [],
          Function.update (Function.update fs gtemp (some ⟨k key, [], out⟩)) (name ++ ".segy".toList)
            (some ⟨k key, defaultMsg, out.map (through fns)⟩)) := by
    have hp : prog = ((Op.gather k g :: fns.map Op.single).map Call.queue) ++ [.output name] := by rw [hprog]; rfl
    rw [hp, calls_queue]
    have h1 : ({ one key [(n, ts)] (List.range ts.length) [] [] defaultMsg [] with
          func := (one key [(n, ts)] (List.range ts.length) [] [] defaultMsg []).func ++ (Op.gather k g :: fns.map Op.single) } : S T)
        = one key [(n, ts)] (List.range ts.length) [] [] defaultMsg (Op.gather k g :: fns.map Op.single) := rfl
    rw [h1, calls, ho, Res.ok_bind, calls]
  refine ⟨⟨one (k key) [(gtemp, out)] (List.range out.length) [] name defaultMsg [], ?_⟩, ?_⟩
  · rw [hadd, Res.ok_bind, hc, applied_singles]
  · unfold life
    rw [hadd, Res.ok_bind, hc, Res.ok_bind]
    dsimp only
    rw [finish_eq _ _ _ _ _ rfl hn0]
    have hsuf : suffix num (k key) ([(gtemp, out)] : List (Name × List T)).length = ".segy".toList := rfl
    have hne : name ++ ".segy".toList ≠ gtemp := by
      intro h
      exact hname (List.append_cancel_right (h.trans (show gtemp = "gtemp".toList ++ ".segy".toList by decide)))
    have hg : (one (k key) [(gtemp, out)] (List.range out.length) [] name defaultMsg []).groups
        = [(k key, dealTo (List.range out.length) (base (k key) [(gtemp, out)]))] := rfl
    have hox : (one (k key) [(gtemp, out)] (List.range out.length) [] name defaultMsg []).outfix = name := rfl
    rw [startSingle_ok]
    · rw [hg, hox]
      simp only [wrote, List.foldl_cons, List.foldl_nil, Res.ok_bind, outName_one, hsuf, Function.update_idem]
      congr 3
      unfold outSeg
      simp only [dealTo_tracesOf, base_tracesOf]
      have hall : allOf [(gtemp, out)] = out := by simp [allOf]
      rw [dealTo_pos _ _ (by rw [base_tracesOf, hall]; simp), hall]
      simp only [List.map_cons, List.map_nil, Op.core, blockSingle, List.map_id]
      rw [written_range _ _ List.pairwise_lt_range (by simp)]
      rfl
    · intro x hx
      rw [hg, List.mem_singleton] at hx
      rw [hx, hox, outName_one, one_open, hsuf]
      simp only [List.map_cons, List.map_nil, List.append_nil, List.mem_singleton]
      exact hne

/-- Two gathers, of one trace and two; each is put in front of itself. -/
example : look "out.segy".toList (life (fun _ => []) 0 (fun l => [1, l.length - 1]) ["in.segy".toList] []
    [.queue (.gather id fun l => l ++ l), .queue (.single (· + 1)), .output "out".toList] exFS) = some [6, 6, 4, 5, 4, 5] := by
  decide +kernel

example : (isSegy "in.segy".toList = true) ∧ "in.segy".toList ≠ gtemp ∧ exFS "in.segy".toList = some ⟨(1, 4), [], [5, 3, 4]⟩ ∧
    ((fun l : List Nat => [1, l.length - 1]) [5, 3, 4]).sum ≤ [5, 3, 4].length := by decide +kernel

/-- C85 fails for the text: with a gather operation the text that was given has no effect at all; and it has none
if a file is added after it. -/
theorem C85_text_refuted : (∀ (num : Int → List Char) (blank : T) (sizes : List T → List Nat) (k : Key → Key) (g : List T → List T)
    (fns : List (T → T)) (key : Key) (n : Name), n ≠ gtemp → isSegy n = true → ∀ (fs : FS T) (text : List Char) (ts : List T),
      fs n = some ⟨key, text, ts⟩ → (sizes ts).sum ≤ ts.length → sizes ts ≠ [] → ∀ name : Name, name ≠ "gtemp".toList →
      ∀ msg : List Char,
      life num blank sizes [n] [] (.text msg :: .queue (.gather k g) :: (fns.map Op.single).map Call.queue ++ [.output name]) fs
        = life num blank sizes [n] [] (.queue (.gather k g) :: (fns.map Op.single).map Call.queue ++ [.output name]) fs) ∧
    (∀ (num : Int → List Char) (blank : T) (sizes : List T → List Nat) (msg : List Char) (n : Name) (l : List (Call T)) (st : S T) (fs : FS T),
      calls num blank sizes (.text msg :: .add n :: l) st fs = calls num blank sizes (.add n :: l) st fs) ∧
    ¬ ∀ (fs : FS Nat), life (fun _ => []) 0 (fun l => [l.length]) ["in.segy".toList] []
        [.text "A".toList, .queue (.gather id id), .output "out".toList] exFS = .ok fs →
      (fs "out.segy".toList).map Seg.text = some "A".toList := by
  refine ⟨?_, ?_, ?_⟩
  · intro num blank sizes k g fns key n hn hseg fs text ts hf hs hs0 name hname msg
    have hadd := addAll_one fs key [] [(n, ts)] (by simp) (by simp) (by
      intro f hm
      have : f = (n, ts) := by simpa using hm
      subst this
      exact ⟨hseg, text, hf⟩)
    have hc : ∀ m m' : List Char, calls num blank sizes
        (.queue (.gather k g) :: (fns.map Op.single).map Call.queue ++ [.output name])
          (one key [(n, ts)] (List.range (allOf [(n, ts)]).length) [] [] m []) fs
        = calls num blank sizes (.queue (.gather k g) :: (fns.map Op.single).map Call.queue ++ [.output name])
          (one key [(n, ts)] (List.range (allOf [(n, ts)]).length) [] [] m' []) fs := by
      intro m m'
      have hp : (Call.queue (.gather k g) :: (fns.map Op.single).map Call.queue ++ [.output name])
          = ((Op.gather k g :: fns.map Op.single).map Call.queue) ++ [.output name] := rfl
      have h1 : ∀ m, ({ one key [(n, ts)] (List.range (allOf [(n, ts)]).length) [] [] m [] with
            func := (one key [(n, ts)] (List.range (allOf [(n, ts)]).length) [] [] m []).func ++ (Op.gather k g :: fns.map Op.single) } : S T)
          = one key [(n, ts)] (List.range (allOf [(n, ts)]).length) [] [] m (Op.gather k g :: fns.map Op.single) := fun _ => rfl
      rw [hp, calls_queue, calls_queue, h1, h1, calls, calls,
        output_gather num blank sizes k g fns key n ts _ [] [] name m hs hs0 hn (by simp) hname (by simp) fs _ rfl,
        output_gather num blank sizes k g fns key n ts _ [] [] name m' hs hs0 hn (by simp) hname (by simp) fs _ rfl]
    unfold life
    rw [List.map_cons, List.map_nil] at hadd
    dsimp only at hadd
    rw [hadd, Res.ok_bind, Res.ok_bind]
    rw [List.cons_append, calls]
    have h2 : ({ one key [(n, ts)] (List.range (allOf [(n, ts)]).length) [] [] defaultMsg [] with outmsg := msg } : S T)
        = one key [(n, ts)] (List.range (allOf [(n, ts)]).length) [] [] msg [] := rfl
    rw [h2, hc msg defaultMsg]
  · intro num blank sizes msg n l st fs
    rw [calls, calls, calls]
    rfl
  · intro h
    have e : ∃ fs, life (fun _ => []) 0 (fun l => [l.length]) ["in.segy".toList] []
        [.text "A".toList, .queue (.gather id id), .output "out".toList] exFS = .ok fs ∧
        (fs "out.segy".toList).map Seg.text = some defaultMsg := by
      have hd : (match life (fun _ => []) 0 (fun l => [l.length]) ["in.segy".toList] []
          [.text "A".toList, .queue (.gather id id), .output "out".toList] exFS with
        | .ok fs => (fs "out.segy".toList).map Seg.text
        | _ => none) = some defaultMsg := by decide +kernel
      cases hl : life (fun _ => []) 0 (fun l => [l.length]) ["in.segy".toList] []
          [.text "A".toList, .queue (.gather id id), .output "out".toList] exFS with
      | ok fs => rw [hl] at hd; exact ⟨fs, rfl, hd⟩
      | ub => rw [hl] at hd; cases hd
      | abort => rw [hl] at hd; cases hd
    obtain ⟨fs, h1, h2⟩ := e
    rw [h fs h1] at h2
    revert h2
    decide +kernel

theorem startGather_two (num : Int → List Char) (blank : T) (sizes : List T → List Nat) (ops : List (Op T)) (a b : Key)
    (x y : Held T) (kept : List Name) (outfix : Name) (msg : List Char) (func : List (Op T)) (fs : FS T) :
    startGather num blank sizes ops ⟨[(a, [x]), (b, [y])], kept, outfix, msg, func⟩ fs = .ub := by
  have hj : join num fs ⟨[(a, [x]), (b, [y])], kept, outfix, msg, func⟩ = .ub := by
    unfold join
    rw [if_pos (by simp)]
    by_cases hop : "temp.segy".toList ∈ openNames (⟨[(a, [x]), (b, [y])], kept, outfix, msg, func⟩ : S T)
    · rw [startSingle_ub]
      · rfl
      · intro h
        exact h (a, [x]) (by simp) hop
    · rw [startSingle_ok]
      · rw [Res.ok_bind]
        simp only [List.map_cons, List.map_nil]
        have hn : ∀ (c : Key) (z : Held T), outName num "temp".toList (c, [z]) = "temp.segy".toList := fun _ _ => by
          simp [outName]
        rw [hn, hn]
        have hk : "temp.segy".toList ∉ kept := by
          intro h
          exact hop (by simp only [openNames, List.mem_append]; exact Or.inr h)
        have hseg : isSegy "temp.segy".toList = true := by decide +kernel
        simp only [addAll, wrote, List.foldl_cons, List.foldl_nil, hn, Function.update_idem]
        have h1 : ∀ (s : S T) (q : FS T) (sg : Seg T), q "temp.segy".toList = some sg → "temp.segy".toList ∉ openNames s →
            add q s "temp.segy".toList = .ok { s with groups := insertFile "temp.segy".toList sg s.groups, outmsg := defaultMsg } := by
          intro s q sg hq ho
          unfold add
          rw [hq]
          simp only [hseg, if_true]
          rw [if_neg ho]
        have h2 : ∀ (s : S T) (q : FS T) (sg : Seg T), q "temp.segy".toList = some sg → "temp.segy".toList ∈ openNames s →
            add q s "temp.segy".toList = .ub := by
          intro s q sg hq ho
          unfold add
          rw [hq]
          simp only [hseg, if_true]
          rw [if_pos ho]
        have hk' : "temp.segy".toList ∉ openNames (⟨[], kept, outfix, msg, func⟩ : S T) := hk
        rw [h1 _ _ _ (Function.update_self ..) hk', Res.ok_bind, h2 _ _ _ (Function.update_self ..)]
        · rfl
        · simp only [openNames, insertFile, List.flatMap_cons, List.flatMap_nil, List.map_cons, List.map_nil, List.append_nil,
            List.mem_append, List.mem_singleton, true_or]
      · intro z hz
        simp only [List.mem_cons, List.not_mem_nil, or_false] at hz
        rcases hz with rfl | rfl
        · exact hop
        · exact hop
  unfold startGather
  rw [hj]
  rfl

/-- C85 fails for gathers of a set with two files that differ in samples or interval: both are written to `temp.segy`, which is then opened
twice. Whatever else is queued, whatever the program does afterwards, whatever the name. -/
theorem C85_groups_refuted (num : Int → List Char) (blank : T) (sizes : List T → List Nat) (n m : Name) (hnm : n ≠ m)
    (hn : isSegy n = true) (hm : isSegy m = true) (fs : FS T) (a b : Seg T) (ha : fs n = some a) (hb : fs m = some b)
    (hab : a.key ≠ b.key) (k : Key → Key) (g : List T → List T) (ops : List (Op T)) (outfix name : Name) (rest : List (Call T)) :
    life num blank sizes [n, m] outfix (.queue (.gather k g) :: ops.map Call.queue ++ .output name :: rest) fs = .ub := by
  have h1 : add fs (⟨[], [], outfix, defaultMsg, []⟩ : S T) n
      = .ok ⟨[(a.key, [⟨n, a.key, a.traces, List.range a.traces.length⟩])], [], outfix, defaultMsg, []⟩ := by
    unfold add
    rw [ha]
    simp only [hn, if_true]
    rw [if_neg (by simp [openNames])]
    rfl
  have h2 : ∃ c d x y, add fs (⟨[(a.key, [⟨n, a.key, a.traces, List.range a.traces.length⟩])], [], outfix, defaultMsg, []⟩ : S T) m
      = .ok ⟨[(c, [x]), (d, [y])], [], outfix, defaultMsg, []⟩ := by
    unfold add
    rw [hb]
    simp only [hm, if_true]
    rw [if_neg (by simpa [openNames] using fun h => hnm h.symm)]
    simp only [insertFile, if_neg hab]
    split
    · exact ⟨_, _, _, _, rfl⟩
    · exact ⟨_, _, _, _, rfl⟩
  obtain ⟨c, d, x, y, h2⟩ := h2
  unfold life
  simp only [addAll, h1, h2, Res.ok_bind]
  have hp : (Call.queue (.gather k g) :: ops.map Call.queue ++ .output name :: rest)
      = ((Op.gather k g :: ops).map Call.queue) ++ .output name :: rest := rfl
  rw [hp, calls_queue]
  simp only [calls, output, List.nil_append, List.cons_append]
  rw [run.eq_4 (x_5 := by simp), startGather_two]
  rfl

/-- Two files, with 1 and 2 samples. -/
def exTwo : FS Nat := fun n =>
  if n = "a.segy".toList then some ⟨(1, 4), [], [5, 3, 4]⟩ else if n = "b.segy".toList then some ⟨(2, 4), [], [6]⟩ else none

example : isSegy "a.segy".toList = true ∧ isSegy "b.segy".toList = true ∧ exTwo "a.segy".toList = some ⟨(1, 4), [], [5, 3, 4]⟩ ∧
    exTwo "b.segy".toList = some ⟨(2, 4), [], [6]⟩ := by decide +kernel

/-- Without the gather the two outputs have the same name too, but both can be written: one of them stays. -/
example : look "o.segy".toList (life (fun _ => []) 0 (fun _ => []) ["a.segy".toList, "b.segy".toList] []
    [.output "o".toList] exTwo) = some [6] := by decide +kernel

/-- Two groups of two files. -/
def exFour : FS Nat := fun n =>
  if n = "a.segy".toList then some ⟨(1, 4), [], [5]⟩ else if n = "b.segy".toList then some ⟨(1, 4), [], [6]⟩
  else if n = "c.segy".toList then some ⟨(2, 4), [], [7]⟩ else if n = "d.segy".toList then some ⟨(2, 4), [], [8]⟩ else none

/-- C85 fails for gathers of a set with several files of each of two kinds: the gathers of each kind are written to the same file from its
start. The traces of the first kind are lost. -/
theorem C85_overwritten_refuted :
    look "o.segy".toList (life (fun _ => []) 0 (fun l => [l.length]) ["a.segy".toList, "b.segy".toList, "c.segy".toList, "d.segy".toList] []
      [.queue (.gather id id), .output "o".toList] exFour) = some [7, 8] ∧
    (∀ n ∈ ["a.segy".toList, "b.segy".toList, "c.segy".toList, "d.segy".toList], isSegy n = true ∧ (exFour n).isSome = true) := by
  decide +kernel

theorem gatherLoop_abort (blank : T) (ops : List (Flow.Op T)) (ts : List T) (ns : List Nat) :
    ∀ off, gatherLoop blank ops ts off ns ≠ .abort := by
  have hb : ∀ (q : List (Flow.Op T)) (b : List T), blockGather q b ≠ .abort := by
    intro q b
    induction q, b using blockGather.induct <;> simp_all [blockGather]
  induction ns with
  | nil => intro off; simp [gatherLoop]
  | cons n ns ih =>
    intro off
    unfold gatherLoop
    cases hr : readBlock blank ts off n with
    | abort => unfold readBlock at hr; split at hr <;> cases hr
    | ub => simp [Res.ub_bind]
    | ok b =>
      rw [Res.ok_bind]
      cases ho : blockGather ops b with
      | abort => exact absurd ho (hb _ _)
      | ub => simp [Res.ub_bind]
      | ok o =>
        rw [Res.ok_bind]
        cases hl : gatherLoop blank ops ts (off + n) ns with
        | abort => exact absurd hl (ih _)
        | ub => simp [Res.ub_bind]
        | ok o => simp [Res.ok_bind]

/-- C85 fails for a second gather operation: the set is then the file `gtemp.segy`, which is open, and the gathers are to be written
to `gtemp.segy`. For a program that makes the set from one file, with single-trace operations after the first gather, an output, and any
operations after the second gather. -/
theorem C85_second_refuted (num : Int → List Char) (blank : T) (sizes : List T → List Nat) (k : Key → Key) (g : List T → List T)
    (fns : List (T → T)) (key : Key) (n : Name) (hn : n ≠ gtemp) (hseg : isSegy n = true) (fs : FS T) (text : List Char)
    (ts : List T) (hf : fs n = some ⟨key, text, ts⟩) (hs : (sizes ts).sum ≤ ts.length) (hs0 : sizes ts ≠ [])
    (name : Name) (hname : name ≠ "gtemp".toList) (k' : Key → Key) (g' : List T → List T) (ops : List (Op T)) (name' : Name) (rest : List (Call T)) :
    life num blank sizes [n] [] ((.queue (.gather k g) :: (fns.map Op.single).map Call.queue ++ [.output name]) ++
      (.queue (.gather k' g') :: ops.map Call.queue ++ .output name' :: rest)) fs = .ub := by
  have hadd := addAll_one fs key [] [(n, ts)] (by simp) (by simp) (by
    intro f hm
    have : f = (n, ts) := by simpa using hm
    subst this
    exact ⟨hseg, text, hf⟩)
  rw [List.map_cons, List.map_nil] at hadd
  dsimp only at hadd
  unfold life
  rw [hadd, Res.ok_bind, calls_append]
  have hp : (Call.queue (.gather k g) :: (fns.map Op.single).map Call.queue ++ [.output name])
      = ((Op.gather k g :: fns.map Op.single).map Call.queue) ++ [.output name] := rfl
  rw [hp, calls_queue]
  have h1 : ({ one key [(n, ts)] (List.range (allOf [(n, ts)]).length) [] [] defaultMsg [] with
        func := (one key [(n, ts)] (List.range (allOf [(n, ts)]).length) [] [] defaultMsg []).func ++ (Op.gather k g :: fns.map Op.single) } : S T)
      = one key [(n, ts)] (List.range (allOf [(n, ts)]).length) [] [] defaultMsg (Op.gather k g :: fns.map Op.single) := rfl
  rw [h1, calls, output_gather num blank sizes k g fns key n ts _ [] [] name defaultMsg hs hs0 hn (by simp) hname (by simp) fs _ rfl,
    Res.ok_bind, calls, Res.ok_bind]
  dsimp only
  generalize ((applied.cut (sizes ts) ts).flatMap g).map (through fns) = out
  generalize Function.update (Function.update fs gtemp (some ⟨k key, [], out⟩)) (name ++ ".segy".toList) _ = fs'
  have hp' : (Call.queue (.gather k' g') :: ops.map Call.queue ++ .output name' :: rest)
      = ((Op.gather k' g' :: ops).map Call.queue) ++ .output name' :: rest := rfl
  rw [hp', calls_queue, calls, output]
  have hq : ({ one (k key) [(gtemp, out)] (List.range out.length) [] name defaultMsg [] with
      func := (one (k key) [(gtemp, out)] (List.range out.length) [] name defaultMsg []).func ++ (Op.gather k' g' :: ops) } : S T)
      = one (k key) [(gtemp, out)] (List.range out.length) [] name defaultMsg (Op.gather k' g' :: ops) := rfl
  rw [hq]
  have hq2 : ({ one (k key) [(gtemp, out)] (List.range out.length) [] name defaultMsg (Op.gather k' g' :: ops) with
      outfix := name', func := [] } : S T) = one (k key) [(gtemp, out)] (List.range out.length) [] name' defaultMsg [] := rfl
  have hfn : (one (k key) [(gtemp, out)] (List.range out.length) [] name defaultMsg (Op.gather k' g' :: ops)).func ++ [Op.single id]
      = Op.gather k' g' :: (ops ++ [Op.single id]) := rfl
  rw [hq2, hfn, run.eq_4 (x_5 := by simp)]
  have hg : startGather num blank sizes (Op.gather k' g' :: (ops ++ [Op.single id]))
      (one (k key) [(gtemp, out)] (List.range out.length) [] name' defaultMsg []) fs' = .ub := by
    have hj : join num fs' (one (k key) [(gtemp, out)] (List.range out.length) [] name' defaultMsg [])
        = .ok (fs', one (k key) [(gtemp, out)] (List.range out.length) [] name' defaultMsg []) := by
      unfold join
      rw [if_neg (by simp [one, dealTo_length, base])]
    have hall : ((Op.gather k' g' :: (ops ++ [Op.single id])).drop 1).all Op.isGather = false := by simp [Op.isGather]
    have hfl : (one (k key) [(gtemp, out)] (List.range out.length) [] name' defaultMsg []).groups.flatMap Prod.snd
        = [⟨gtemp, k key, out, (List.range out.length).take out.length⟩] := by simp [one, base, dealTo]
    unfold startGather
    rw [hj, Res.ok_bind]
    simp only [hall, Bool.false_eq_true, if_false, hfl, gatherFiles]
    cases hl : gatherLoop blank ((Op.gather k' g' :: (ops ++ [Op.single id])).map Op.core) out 0
      (List.replicate (gatherCount ((Op.gather k' g' :: (ops ++ [Op.single id])).map Op.core)) (sizes out)).flatten with
    | abort => exact absurd hl (gatherLoop_abort _ _ _ _ _)
    | ub => rfl
    | ok o =>
      rw [Res.ok_bind, writeSeg, if_pos]
      · rfl
      · rw [one_open]
        exact List.mem_cons_self
  rw [hg]
  rfl

/-- C85 fails for an output that replaces the input: with a gather operation alone this works (`C85_gather_partial` allows every
name but that of the temporary file), since the set has closed its input by then; after a sort the cache still has the input open and the
output must not be opened. For one file of at least three traces, whatever comes after. -/
theorem C85_kept_refuted (num : Int → List Char) (blank : T) (sizes : List T → List Nat) (by' : T → Nat) (k : Key → Key)
    (g : List T → List T) (fns : List (T → T)) (key : Key) (name : Name) (hname : name ≠ "gtemp".toList) (fs : FS T)
    (text : List Char) (ts : List T) (hf : fs (name ++ ".segy".toList) = some ⟨key, text, ts⟩)
    (hseg : isSegy (name ++ ".segy".toList) = true) (h3 : 3 ≤ ts.length) (hs : (sizes ts).sum ≤ ts.length) (hs0 : sizes ts ≠ [])
    (rest : List (Call T)) :
    life num blank sizes [name ++ ".segy".toList] [] (.queue (.sort by') :: .queue (.gather k g) ::
      (fns.map Op.single).map Call.queue ++ .output name :: rest) fs = .ub := by
  have hne : name ++ ".segy".toList ≠ gtemp := by
    intro h
    exact hname (List.append_cancel_right (h.trans (show gtemp = "gtemp".toList ++ ".segy".toList by decide)))
  generalize hn : name ++ ".segy".toList = n at hf hseg hne ⊢
  have hadd := addAll_one fs key [] [(n, ts)] (by simp) (by simp) (by
    intro f hm
    have : f = (n, ts) := by simpa using hm
    subst this
    exact ⟨hseg, text, hf⟩)
  rw [List.map_cons, List.map_nil] at hadd
  dsimp only at hadd
  unfold life
  rw [hadd, Res.ok_bind]
  have hp : (Call.queue (.sort by') :: .queue (.gather k g) :: (fns.map Op.single).map Call.queue ++ .output name :: rest)
      = ((Op.sort by' :: Op.gather k g :: fns.map Op.single).map Call.queue) ++ .output name :: rest := rfl
  rw [hp, calls_queue, calls, output]
  have hst : ({ ({ one key [(n, ts)] (List.range (allOf [(n, ts)]).length) [] [] defaultMsg [] with
        func := (one key [(n, ts)] (List.range (allOf [(n, ts)]).length) [] [] defaultMsg []).func ++
          (Op.sort by' :: Op.gather k g :: fns.map Op.single) } : S T) with outfix := name, func := [] } : S T)
      = one key [(n, ts)] (List.range (allOf [(n, ts)]).length) [] name defaultMsg [] := rfl
  have hq : ({ one key [(n, ts)] (List.range (allOf [(n, ts)]).length) [] [] defaultMsg [] with
        func := (one key [(n, ts)] (List.range (allOf [(n, ts)]).length) [] [] defaultMsg []).func ++
          (Op.sort by' :: Op.gather k g :: fns.map Op.single) } : S T).func ++ [Op.single id]
      = Op.sort by' :: Op.gather k g :: (fns ++ [id]).map Op.single := by simp [one]
  have ha : allOf [(n, ts)] = ts := by simp [allOf]
  rw [hst, hq, run, startSubset_one key [(n, ts)] _ [] name defaultMsg [] by' (Or.inl (by rw [ha]; exact h3)), Res.ok_bind,
    run.eq_4 (x_5 := by simp), List.map_cons, List.map_nil, List.nil_append]
  dsimp only
  rw [startGather_one num blank sizes k g fns key n ts _ [n] name defaultMsg [] hs hs0 hne
    (by rw [List.mem_singleton]; exact fun h => hne h.symm), Res.ok_bind]
  obtain ⟨f, l, hl⟩ : ∃ f l, fns ++ [id] = f :: l := by
    cases fns with
    | nil => exact ⟨id, [], rfl⟩
    | cons a b => exact ⟨a, b ++ [id], rfl⟩
  simp only [ne_eq, not_true_eq_false, if_false]
  rw [hl, run_singles num blank sizes .gathers (by simp), ← hl, startSingle_ub]
  · rfl
  · intro h
    refine h _ (by simp [one]; rfl) ?_
    rw [one_open]
    have : (one (k key) [(gtemp, ((applied.cut (sizes ts) ts).flatMap g).map (through fns))]
      (List.range (((applied.cut (sizes ts) ts).flatMap g).map (through fns)).length) [n] name defaultMsg []).outfix = name := rfl
    rw [this, outName_one]
    exact List.mem_append_right _ (by rw [List.mem_singleton, ← hn]; rfl)

example : (look "in.segy".toList (life (fun _ => []) 0 (fun l => [l.length]) ["in.segy".toList] []
    [.queue (.gather id List.reverse), .output "in".toList] exFS) = some [4, 3, 5]) ∧
    look "in.segy".toList (life (fun _ => []) 0 (fun l => [l.length]) ["in.segy".toList] []
    [.queue (.sort id), .queue (.gather id List.reverse), .output "in".toList] exFS) = none := by decide +kernel

end Verif.Life
