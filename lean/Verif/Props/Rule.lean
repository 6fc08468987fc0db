import Verif.Rule.Lemmas
import Mathlib.Data.List.Perm.Subperm
/-!
# C09, C10, C13 (window part): rules
-/
namespace Verif.Rules

/-- Calls considered.  Excluded: `COPY` used as the key of an add of another
kind (`C09_copy_key_refuted`), and `getEntry` of an absent key
(`C10_lookup_refuted`).  `addRule(Rule)` is a constructor of `Reach` below. -/
def Allowed (r : Rule) : Op → Prop
  | .addLong m _ => m ≠ COPY
  | .addShort m _ => m ≠ COPY
  | .addFloat m _ _ => m ≠ COPY
  | .addIndex m => m ≠ COPY
  | .getEntry m => abs r m ≠ none
  | .addRules _ => False
  | _ => True

/-- Rules reachable by calls, all of whose states satisfy `P`. -/
inductive Reach (P : Rule → Prop) : Rule → Prop
  /-- the constructor taking a list of items -/
  | ctor {ms full d e r} : ctor ms full d e = .ok r → P r → Reach P r
  /-- the constructor taking a map, given one with consistent numbering -/
  | ctorMap {l full r} : MapWF l → (∀ k, (nums k l).Nodup) →
      (∀ k n, n ∈ nums k l → n < (nums k l).length) → ctorMap l full = .ok r → P r → Reach P r
  /-- any call -/
  | step {r op r' o} : Reach P r → Allowed r op → step r op = .ok (r', o) → P r' → Reach P r'
  /-- `addRule` of another reachable rule, iterated in any order -/
  | addRules {r r₂ l r'} : Reach P r → Reach P r₂ → l.Perm r₂.map → addRules r l = .ok r' →
      P r' → Reach P r'

/-- All reachable rules. -/
abbrev Reachable (r : Rule) : Prop := Reach (fun _ => True) r

/-- Next abstract map after a call: the specification of C10. -/
def specNext (a : Nat → Option Val) : Op → Nat → Option Val
  | .addLong m loc => aset a m (some (.long, loc, 0))
  | .addShort m loc => aset a m (some (.short, loc, 0))
  | .addFloat m loc scal => aset a m (some (.float, loc, scal))
  | .addIndex m => aset a m (some (.index, 0, 0))
  | .addCopy => if a COPY = none then aset a COPY (some (.copy, 0, 0)) else a
  | .rmRule m => aset a m none
  | .addRule m =>
    if a m = none then (match known m with | some v => aset a m (some v) | none => a) else a
  | .addRules l => fun m => (a m).or (absMap l m)
  | .getEntry _ => a
  | .extent => a

/-- What a call must return, as far as C10 says. -/
def SpecOut (a : Nat → Option Val) : Op → Out → Prop
  | .addRule m, o => o = .bool (decide (a m = none ∧ known m ≠ none))
  | .getEntry m, o => ∃ e, o = .entry (some e) ∧ a m = some (entryVal e)
  | _, _ => True

/-- One call, everything about it. -/
theorem step_spec {r : Rule} (hr : Inv r) (op : Op) (ha : Allowed r op) :
    ∃ r' o, step r op = .ok (r', o) ∧ Inv r' ∧ abs r' = specNext (abs r) op ∧ SpecOut (abs r) op o ∧
      r'.fullextent = r.fullextent := by
  cases op with
  | addLong m loc =>
    obtain ⟨r', h1, h2, h3, h4, _⟩ := add_spec hr m .long loc 0 (by simp) ha (by simp [Shape]) (fun f _ => !f)
    refine ⟨r', .unit, ?_, h2, h3, trivial, h4⟩
    show (do let r ← addLong r m loc; Res.ok (r, Out.unit)) = _
    unfold addLong; rw [h1]; rfl
  | addShort m loc =>
    obtain ⟨r', h1, h2, h3, h4, _⟩ := add_spec hr m .short loc 0 (by simp) ha (by simp [Shape]) (fun f _ => !f)
    refine ⟨r', .unit, ?_, h2, h3, trivial, h4⟩
    show (do let r ← addShort r m loc; Res.ok (r, Out.unit)) = _
    unfold addShort; rw [h1]; rfl
  | addFloat m loc scal =>
    obtain ⟨r', h1, h2, h3, h4, _⟩ := add_spec hr m .float loc scal (by simp) ha (by simp [Shape]) (fun f _ => !f)
    refine ⟨r', .unit, ?_, h2, h3, trivial, h4⟩
    show (do let r ← addFloat r m loc scal; Res.ok (r, Out.unit)) = _
    unfold addFloat; rw [h1]; rfl
  | addIndex m =>
    obtain ⟨r', h1, h2, h3, h4⟩ := addIndex_inv hr m ha
    refine ⟨r', .unit, ?_, h2, h3, trivial, h4⟩
    show (do let r ← addIndex r m; Res.ok (r, Out.unit)) = _
    rw [h1]; rfl
  | addCopy =>
    obtain ⟨h1, h2, h3⟩ := addCopy_spec hr
    exact ⟨_, _, rfl, h1, h2, trivial, h3⟩
  | rmRule m =>
    obtain ⟨r', h1, h2, h3, _, h5, _⟩ := rmRule_spec hr m
    refine ⟨r', .unit, ?_, h2, h3, trivial, h5⟩
    show (do let r ← rmRule r m; Res.ok (r, Out.unit)) = _
    rw [h1]; rfl
  | addRule m =>
    obtain ⟨r', b, h1, h2, h3, h4, h5⟩ := addRule_spec hr m
    refine ⟨r', .bool b, ?_, h2, h5, ?_, h3⟩
    · show (do let (r, b) ← addRule r m; Res.ok (r, Out.bool b)) = _
      rw [h1]; rfl
    · show Out.bool b = Out.bool _
      congr 1
      by_cases hc : abs r m = none ∧ known m ≠ none
      · rw [h4.mpr hc]; simp [hc]
      · have : b ≠ true := fun h => hc (h4.mp h)
        simp only [hc]; simpa using this
  | addRules l => exact absurd ha (by simp [Allowed])
  | getEntry m =>
    have hne : abs r m ≠ none := ha
    cases hf : find r.map m with
    | none => exact absurd ((abs_none_iff hr m).mpr hf) hne
    | some o =>
      obtain ⟨e, he⟩ := hr.nonull _ (find_mem hf)
      simp only at he; subst he
      have hg : getEntry r m = (r, some e) := by unfold getEntry; rw [hf]
      refine ⟨r, .entry (some e), ?_, hr, rfl, ?_, rfl⟩
      · show (let (r, e) := getEntry r m; Res.ok (r, Out.entry e)) = _
        rw [hg]
      · exact ⟨e, rfl, by unfold abs; rw [hf]⟩
  | extent =>
    obtain ⟨r', n, h1, h2, h3, h4⟩ := extent_spec hr
    refine ⟨r', .size n, ?_, h2, abs_congr h3, trivial, h4⟩
    show (do let (r, n) ← extent r; Res.ok (r, Out.size n)) = _
    rw [h1]; rfl

theorem Reach.inv {P : Rule → Prop} {r : Rule} (h : Reach P r) : Inv r := by
  induction h with
  | @ctor ms full d e r h _ =>
    obtain ⟨r', h1, h2, _⟩ := ctor_inv ms full d e
    rw [h] at h1; cases h1; exact h2
  | ctorMap hw hn hl h _ =>
    obtain ⟨r', h1, h2, _⟩ := ctorMap_inv _ _ hw hn hl
    rw [h] at h1; cases h1; exact h2
  | step _ ha h _ ih =>
    obtain ⟨r', o, h1, h2, _⟩ := step_spec ih _ ha
    rw [h] at h1; cases h1; exact h2
  | addRules _ _ hp h _ ih ih₂ =>
    obtain ⟨r', h1, h2, _⟩ := addRules_spec _ ih (MapWF.of_inv ih₂ hp)
    rw [h] at h1; cases h1; exact h2

/-! ## C09 -/

/-- Slots of one kind are exactly `0 .. count-1`, one entry each. -/
def SlotsExact (r : Rule) (k : Kind) : Prop :=
  (∀ m e, find r.map m = some (some e) → e.kind = k → e.num < r.cnt k) ∧
  (∀ m m' e e', find r.map m = some (some e) → find r.map m' = some (some e') →
    e.kind = k → e'.kind = k → e.num = e'.num → m = m') ∧
  (∀ i, i < r.cnt k → ∃ m e, find r.map m = some (some e) ∧ e.kind = k ∧ e.num = i)

/-- **C09** (part): in every reachable rule the entries of each kind use the
slots `0 .. count-1`, each exactly once.  Missing from the full statement:
histories that add the key `COPY` as another kind (`C09_copy_key_refuted`) or
look up an absent key (`C10_lookup_refuted`). -/
theorem C09_slots_partial (r : Rule) (h : Reachable r) (k : Kind) : SlotsExact r k := by
  have hi := h.inv
  refine ⟨?_, ?_, ?_⟩
  · intro m e hf hk
    exact hi.lt k e.num (List.mem_filterMap.mpr ⟨_, find_mem hf, by simp [slot, hk]⟩)
  · intro m m' e e' hf hf' hk hk' hn
    have key : ∀ (l : Map), (nums k l).Nodup → (m, some e) ∈ l → (m', some e') ∈ l → m = m' := by
      intro l
      induction l with
      | nil => intro _ h; simp at h
      | cons q qs ih =>
        intro hnd h1 h2
        rcases List.mem_cons.mp h1 with rfl | h1' <;> rcases List.mem_cons.mp h2 with h2' | h2'
        · simp only [Prod.mk.injEq] at h2'; exact h2'.1.symm
        · exfalso
          simp only [nums, List.filterMap_cons, slot, hk, if_true, List.nodup_cons] at hnd
          exact hnd.1 (List.mem_filterMap.mpr ⟨_, h2', by simp [slot, hk', hn]⟩)
        · exfalso
          subst h2'
          simp only [nums, List.filterMap_cons, slot, hk', if_true, List.nodup_cons] at hnd
          exact hnd.1 (List.mem_filterMap.mpr ⟨_, h1', by simp [slot, hk, hn]⟩)
        · refine ih ?_ h1' h2'
          unfold nums at hnd
          rw [List.filterMap_cons] at hnd
          split at hnd
          · exact hnd
          · exact (List.nodup_cons.mp hnd).2
    exact key r.map (hi.nodup k) (find_mem hf) (find_mem hf')
  · intro i hlt
    have hsub : nums k r.map ⊆ List.range (r.cnt k) := fun n hn => List.mem_range.mpr (hi.lt k n hn)
    have hp := (List.subperm_of_subset (hi.nodup k) hsub).perm_of_length_le
      (by rw [hi.len k]; simp)
    obtain ⟨⟨m, o⟩, hm, hs⟩ := List.mem_filterMap.mp (hp.mem_iff.mpr (List.mem_range.mpr hlt))
    obtain ⟨e, he⟩ := hi.nonull _ hm
    simp only at he; subst he
    simp only [slot] at hs
    split at hs
    · rename_i hk
      exact ⟨m, e, find_of_mem hi.keys hm, hk, by simpa using hs⟩
    · simp at hs

/-- A reachable state: the default rule with the inline removed and the offset
moved to another place as a 16-bit item. -/
example : ∃ r r' r'' o o', ctor [] true true false = .ok r ∧ step r (.rmRule 26) = .ok (r', o) ∧
    step r' (.addShort 14 37) = .ok (r'', o') ∧ Reachable r'' ∧ r''.cnt .long = 2 ∧
    r''.cnt .float = 6 ∧ r''.cnt .short = 1 := by
  refine ⟨_, _, _, _, _, rfl, rfl, rfl, ?_, by decide, by decide, by decide⟩
  refine Reach.step (op := .addShort 14 37) (Reach.step (op := .rmRule 26)
    (Reach.ctor (ms := []) (full := true) (d := true) (e := false) rfl trivial) trivial rfl trivial)
    ?_ rfl trivial
  show 14 ≠ COPY
  decide

/-- **C09**: every allowed call succeeds (no undefined behaviour) from every
reachable rule, and so does adding another reachable rule. -/
theorem C09_progress (r : Rule) (h : Reachable r) :
    (∀ op, Allowed r op → ∃ r' o, step r op = .ok (r', o)) ∧
    (∀ r₂ l, Reachable r₂ → l.Perm r₂.map → ∃ r', addRules r l = .ok r') := by
  refine ⟨fun op ha => ?_, fun r₂ l h₂ hp => ?_⟩
  · obtain ⟨r', o, h1, _⟩ := step_spec h.inv op ha; exact ⟨r', o, h1⟩
  · obtain ⟨r', h1, _⟩ := addRules_spec l h.inv (MapWF.of_inv h₂.inv hp); exact ⟨r', h1⟩

/-- **C09** refuted: adding the key `COPY` as an integer and then enabling header
copying leaves an integer slot that no entry uses. -/
theorem C09_copy_key_refuted :
    ∃ r os, (do let r ← ctor [] true false false; run r [.addLong COPY 1, .addCopy]) = .ok (r, os) ∧
      ¬ SlotsExact r .long := by
  refine ⟨_, _, rfl, ?_⟩
  rintro ⟨_, _, h⟩
  obtain ⟨m, e, h1, h2, _⟩ := h 0 (by decide)
  have hm := find_mem h1
  have : ∀ p ∈ [((0:Nat), some (Entry.mk .copy 0 0 0)), (1, some ⟨.index, 1, 0, 0⟩),
      (2, some ⟨.index, 0, 0, 0⟩)], ∀ e, p.2 = some e → e.kind ≠ .long := by decide
  exact this _ hm e rfl h2

/-! ## C10 -/

/-- **C10** (part): each allowed call changes the abstract map as specified
(adds overwrite one key, removal clears one key, all other keys unchanged) and
returns what is specified: `addRule` true exactly if the item was absent and is
known; `getEntry` the entry held.  Missing from the full statement: looking up
an absent item (`C10_lookup_refuted`). -/
theorem C10_step_partial (r : Rule) (h : Reachable r) (op : Op) (ha : Allowed r op) :
    ∃ r' o, step r op = .ok (r', o) ∧ Reachable r' ∧ abs r' = specNext (abs r) op ∧
      SpecOut (abs r) op o := by
  obtain ⟨r', o, h1, h2, h3, h4, _⟩ := step_spec h.inv op ha
  exact ⟨r', o, h1, Reach.step h ha h1 trivial, h3, h4⟩

example : Allowed ⟨[(26, some ⟨.long, 0, 189, 0⟩)], fun _ => 1, 0, 240, false, true⟩ (.getEntry 26) := by
  show abs _ 26 ≠ none
  decide

/-- **C10**: `addRule(Rule)` adds exactly the items that are absent, whatever the
iteration order, and reports no error. -/
theorem C10_addRules (r r₂ : Rule) (h : Reachable r) (h₂ : Reachable r₂) (l : Map)
    (hp : l.Perm r₂.map) :
    ∃ r', step r (.addRules l) = .ok (r', .bool true) ∧ Reachable r' ∧
      ∀ m, abs r' m = (abs r m).or (abs r₂ m) := by
  obtain ⟨r', h1, h2, h3, h4⟩ := addRules_spec l h.inv (MapWF.of_inv h₂.inv hp)
  refine ⟨r', by simp only [step, h1, Res.ok_bind], Reach.addRules h h₂ hp h1 trivial, fun m => ?_⟩
  rw [h4]
  have : absMap l m = abs r₂ m := by
    have hk : (l.map Prod.fst).Nodup := (hp.map _).nodup_iff.mpr h₂.inv.keys
    unfold absMap abs
    cases hf : find r₂.map m with
    | none =>
      rw [find_none.mpr fun p hpm => find_none.mp hf p (hp.mem_iff.mp hpm)]
    | some o =>
      rw [find_of_mem hk (hp.mem_iff.mpr (find_mem hf))]
  simp only [this]

example : ∃ r r₂, ctor [5] true false false = .ok r ∧ ctor [26, 5] true false false = .ok r₂ ∧
    abs r 26 = none ∧ abs r₂ 26 = some (.long, 189, 0) := ⟨_, _, rfl, rfl, by decide, by decide⟩

/-- The history of one item `m`: what one call does to the value held for it. -/
def lastEffect (m : Nat) (v : Option Val) : Op → Option Val
  | .addLong m' loc => if m' = m then some (.long, loc, 0) else v
  | .addShort m' loc => if m' = m then some (.short, loc, 0) else v
  | .addFloat m' loc scal => if m' = m then some (.float, loc, scal) else v
  | .addIndex m' => if m' = m then some (.index, 0, 0) else v
  | .addCopy => if m = COPY then v.or (some (.copy, 0, 0)) else v
  | .rmRule m' => if m' = m then none else v
  | .addRule m' => if m' = m then v.or (known m) else v
  | .addRules l => v.or (absMap l m)
  | .getEntry _ => v
  | .extent => v

/-- **C10** last-add-wins over whole histories: the value held for an item after
any sequence of calls is determined by the calls on that item alone, the last
one winning. -/
theorem C10_history_partial (ops : List Op) : ∀ (r : Rule), Reachable r →
    (∀ op ∈ ops, match op with
      | .addRules _ => False | .getEntry _ => False | .addLong m _ => m ≠ COPY
      | .addShort m _ => m ≠ COPY | .addFloat m _ _ => m ≠ COPY | .addIndex m => m ≠ COPY
      | _ => True) →
    ∃ r' os, run r ops = .ok (r', os) ∧ Reachable r' ∧
      ∀ m, abs r' m = ops.foldl (lastEffect m) (abs r m) := by
  induction ops with
  | nil => intro r h _; exact ⟨r, [], rfl, h, fun m => rfl⟩
  | cons op ops ih =>
    intro r h hall
    have hop := hall op List.mem_cons_self
    have ha : Allowed r op := by
      cases op <;> simp_all [Allowed]
    obtain ⟨r1, o, h1, h2, h3, -⟩ := C10_step_partial r h op ha
    obtain ⟨r', os, g1, g2, g3⟩ := ih r1 h2 fun op' h' => hall op' (List.mem_cons_of_mem _ h')
    refine ⟨r', o :: os, ?_, g2, fun m => ?_⟩
    · unfold run
      rw [h1]
      simp only [Res.ok_bind, g1]
    · rw [g3, List.foldl_cons]
      congr 1
      rw [h3]
      have hne : ∀ x, (m = x) ↔ (x = m) := fun x => ⟨Eq.symm, Eq.symm⟩
      cases op <;> simp only [specNext, lastEffect, aset, hne]
      case addCopy =>
        by_cases hm : COPY = m
        · subst hm; cases hc : abs r COPY <;> simp [aset, hc]
        · have hm' : ¬ m = COPY := fun h => hm h.symm
          by_cases hc : abs r COPY = none <;> simp [aset, hc, hm, hm']
      case addRule x =>
        by_cases hm : x = m
        · subst hm
          cases hc : abs r x with
          | none => cases known x <;> simp [aset, hc]
          | some v => simp [hc]
        · have hm' : ¬ m = x := fun h => hm h.symm
          by_cases hc : abs r x = none <;> cases known x <;> simp [aset, hc, hm, hm']

/-- Example history: add, overwrite as another kind, remove, add again. -/
example : [Op.addLong 26 189, .addShort 26 3, .rmRule 26, .addFloat 26 7 71].foldl (lastEffect 26) none
    = some (.float, 7, 71) := by decide

/-- **C10** refuted: merely looking up an absent item changes the rule: afterwards
`addRule` of that item reports false and adds nothing, and removing it, or
removing any other present item, or asking for the extent dereferences a null
pointer. -/
theorem C10_lookup_refuted :
    ∃ r r', ctor [5] false false false = .ok r ∧ step r (.getEntry 26) = .ok (r', .entry none) ∧
      (∃ r'', step r (.addRule 26) = .ok (r'', .bool true)) ∧
      (∃ r'', step r' (.addRule 26) = .ok (r'', .bool false) ∧ abs r'' 26 = none) ∧
      step r' (.rmRule 26) = .ub ∧ step r' (.rmRule 5) = .ub ∧ step r' (.addLong 26 189) = .ub :=
  ⟨_, _, rfl, rfl, ⟨_, rfl⟩, ⟨_, rfl, rfl⟩, rfl, rfl, rfl⟩

/-- The trace header of the SEG-Y standard, in the order of its bytes: item,
kind, first byte and first byte of its scalar.  `documentation/` and `Meta.h`
give the names. -/
def standard : List (Nat × Val) :=
  [(3, .long, 1, 0),      -- trace number within line
   (5, .long, 5, 0),      -- trace number within file
   (4, .long, 13, 0),     -- trace number within field record
   (10, .long, 17, 0),    -- source point number
   (6, .long, 25, 0),     -- trace number within ensemble
   (9, .short, 29, 0),    -- trace identification code
   (12, .short, 31, 0),   -- vertically summed traces
   (13, .short, 33, 0),   -- horizontally stacked traces
   (14, .long, 37, 0),    -- offset
   (15, .float, 41, 69),  -- receiver group elevation
   (16, .float, 45, 69),  -- surface elevation at source
   (17, .float, 49, 69),  -- source depth below surface
   (18, .float, 61, 69),  -- water depth at source
   (19, .float, 65, 69),  -- water depth at group
   (20, .float, 73, 71),  -- source x
   (21, .float, 77, 71),  -- source y
   (22, .float, 81, 71),  -- group x
   (23, .float, 85, 71),  -- group y
   (7, .short, 115, 0),   -- number of samples
   (8, .short, 117, 0),   -- sample interval
   (24, .float, 181, 71), -- x of ensemble
   (25, .float, 185, 71), -- y of ensemble
   (26, .long, 189, 0),   -- in-line
   (27, .long, 193, 0),   -- cross-line
   (11, .float, 197, 201),-- shotpoint number
   (29, .short, 203, 0),  -- trace value measurement unit
   (28, .short, 211, 0),  -- transduction units
   (0, .copy, 0, 0)]      -- the whole header

/-- The entry of `standard` for an item. -/
def documented (m : Nat) : Option Val := (standard.find? (·.1 == m)).map (·.2)

theorem known_documented (m : Nat) : known m = documented m := by
  by_cases h : m < 30
  · exact (by decide +kernel : ∀ m ∈ List.range 30, known m = documented m) m (List.mem_range.mpr h)
  · have h1 : known m = none := by
      unfold known
      split <;> first | omega | rfl
    have h2 : standard.find? (·.1 == m) = none := by
      rw [List.find?_eq_none]
      intro p hp
      have := (by decide +kernel : ∀ p ∈ standard, p.1 < 30) p hp
      simp only [beq_iff_eq]
      omega
    rw [h1, documented, h2]
    rfl

theorem addAll_abs (ms : List Nat) : ∀ {r : Rule}, Inv r → ∀ {r'}, addAll r ms = .ok r' →
    ∀ m, abs r' m = (abs r m).or (if m ∈ ms then known m else none) := by
  induction ms with
  | nil =>
    intro r hr r' h m
    cases h
    simp
  | cons x ms ih =>
    intro r hr r' h m
    obtain ⟨r1, b, h1, h2, h3, -, h4⟩ := addRule_spec hr x
    unfold addAll at h
    rw [h1] at h
    have g := ih h2 (show addAll r1 ms = .ok r' from h) m
    rw [g, h4]
    by_cases hm : m = x
    · subst hm
      by_cases ha : abs r m = none
      · cases hk : known m with
        | none => simp [ha]
        | some v => simp [ha, aset]
      · obtain ⟨v, hv⟩ := Option.ne_none_iff_exists'.mp ha
        simp [hv]
    · by_cases ha : abs r x = none
      · cases hk : known x with
        | none => simp [ha, hm]
        | some v => simp [ha, hm, aset]
      · simp [ha, hm]

/-- **C10**, constructors: a rule made from a list of items holds exactly the
two trace numbers, the items of the list that the library knows, with
`defaults` the coordinates, line numbers, offset and trace number, and with
`extras` the other items apart from the water depths, each where the standard
puts it. -/
theorem C10_ctor (ms : List Nat) (full defaults extras : Bool) :
    ∃ r, ctor ms full defaults extras = .ok r ∧ Reachable r ∧ ∀ m, abs r m =
      if m = 1 ∨ m = 2 then some (.index, 0, 0)
      else if m ∈ ms ∨ (defaults ∧ (20 ≤ m ∧ m ≤ 27 ∨ m = 14 ∨ m = 5)) ∨
          (extras ∧ (3 ≤ m ∧ m ≤ 17 ∧ m ≠ 5 ∧ m ≠ 14 ∨ m = 28 ∨ m = 29)) then documented m
      else none := by
  obtain ⟨r1, a1, a2, a3, a4⟩ := addIndex_inv (empty_inv full) gtn (by decide)
  obtain ⟨r2, b1, b2, b3, b4⟩ := addIndex_inv a2 ltn (by decide)
  obtain ⟨r3, c1, c2, c3⟩ := addAll_inv ms b2
  obtain ⟨r4, d1, d2, d3⟩ := addAll_inv (if defaults then defaultMetas else []) c2
  obtain ⟨r5, e1, e2, e3⟩ := addAll_inv (if extras then extraMetas else []) d2
  obtain ⟨r6, f1, f2, f3, f4⟩ := finish_inv e2 full
  have hc : ctor ms full defaults extras = .ok r6 := by
    unfold ctor
    simp only [a1, b1, c1, d1, e1, f1, Res.ok_bind]
  refine ⟨r6, hc, .ctor hc trivial, fun m => ?_⟩
  rw [abs_congr f3, addAll_abs _ d2 e1, addAll_abs _ c2 d1, addAll_abs _ b2 c1, b3, a3, ← known_documented]
  have hd : m ∈ defaultMetas ↔ (20 ≤ m ∧ m ≤ 27 ∨ m = 14 ∨ m = 5) := by
    simp only [defaultMetas, List.mem_cons, List.not_mem_nil, or_false]
    omega
  have he : m ∈ extraMetas ↔ (3 ≤ m ∧ m ≤ 17 ∧ m ≠ 5 ∧ m ≠ 14 ∨ m = 28 ∨ m = 29) := by
    simp only [extraMetas, List.mem_cons, List.not_mem_nil, or_false]
    omega
  have h0 : ∀ m, abs ⟨[], fun _ => 0, 0, 0, false, full⟩ m = none := fun _ => rfl
  simp only [← hd, ← he]
  by_cases h12 : m = 1 ∨ m = 2
  · rw [if_pos h12]
    rcases h12 with h | h <;> subst h <;> rfl
  · rw [if_neg h12]
    have h1 : ¬ m = ltn := fun h => h12 (.inl h)
    have h2 : ¬ m = gtn := fun h => h12 (.inr h)
    simp only [aset, h1, h2, if_false, h0, Option.none_or]
    cases defaults <;> cases extras <;> cases hk : known m <;>
      by_cases k1 : m ∈ ms <;> by_cases k2 : m ∈ defaultMetas <;> by_cases k3 : m ∈ extraMetas <;>
      simp [k1, k2, k3]

/-- The water depth of the receiver is in no default: it has to be asked for. -/
example : (∃ r, ctor [19, 40] true true false = .ok r ∧ abs r 19 = some (.float, 65, 69) ∧
      abs r 26 = some (.long, 189, 0) ∧ abs r 40 = none ∧ abs r 15 = none) ∧
    ∃ r, ctor [] true true true = .ok r ∧ abs r 19 = none ∧ abs r 15 = some (.float, 41, 69) :=
  ⟨⟨_, rfl, rfl, rfl, rfl, rfl⟩, _, rfl, rfl, rfl⟩

/-! ## C13: the window of a rule that does not cover the whole header -/

/-- Byte intervals `[min, max)` of the fields held (index items have none). -/
def fields (l : Map) : List (Nat × Nat) :=
  l.filterMap fun p => match p.2 with
    | some e => if e.kind = .index then none else some (e.min, e.max)
    | none => none

/-- `[a, b)` contains every field. -/
def Contains (l : Map) (a b : Nat) : Prop := ∀ f ∈ fields l, a ≤ f.1 ∧ f.2 ≤ b

theorem extentLoop_spec (l : Map) : ∀ s t s' t', extentLoop s t l = .ok (s', t') →
    s' ≤ s ∧ t ≤ t' ∧ Contains l s' t' ∧
    (s' = s ∨ ∃ f ∈ fields l, f.1 = s') ∧ (t' = t ∨ ∃ f ∈ fields l, f.2 = t') := by
  induction l with
  | nil => intro s t s' t' h; cases h; simp [Contains, fields]
  | cons q qs ih =>
    intro s t s' t' h
    obtain ⟨m, o⟩ := q
    cases o with
    | none => simp [extentLoop] at h
    | some e =>
      unfold extentLoop at h
      by_cases hk : e.kind = .index
      · rw [if_neg (by simpa using hk)] at h
        have := ih _ _ _ _ h
        have hf : fields ((m, some e) :: qs) = fields qs := by simp [fields, hk]
        unfold Contains at *
        rw [hf]; exact this
      · rw [if_pos hk] at h
        obtain ⟨h1, h2, h3, h4, h5⟩ := ih _ _ _ _ h
        have hf : fields ((m, some e) :: qs) = (e.min, e.max) :: fields qs := by simp [fields, hk]
        have a1 : Nat.min s e.min ≤ s := Nat.min_le_left _ _
        have a2 : Nat.min s e.min ≤ e.min := Nat.min_le_right _ _
        have b1 : t ≤ Nat.max t e.max := Nat.le_max_left _ _
        have b2 : e.max ≤ Nat.max t e.max := Nat.le_max_right _ _
        refine ⟨by omega, by omega, ?_, ?_, ?_⟩
        · intro f hfm
          rw [hf] at hfm
          rcases List.mem_cons.mp hfm with rfl | hfm
          · exact ⟨by simp only; omega, by simp only; omega⟩
          · exact h3 f hfm
        · rw [hf]
          rcases h4 with h4 | ⟨f, hf1, hf2⟩
          · rcases Nat.le_total s e.min with hle | hle
            · left; rw [h4]; exact Nat.min_eq_left hle
            · right; exact ⟨_, List.mem_cons_self, by rw [h4]; exact (Nat.min_eq_right hle).symm⟩
          · right; exact ⟨f, List.mem_cons_of_mem _ hf1, hf2⟩
        · rw [hf]
          rcases h5 with h5 | ⟨f, hf1, hf2⟩
          · rcases Nat.le_total t e.max with hle | hle
            · right; exact ⟨_, List.mem_cons_self, by rw [h5]; exact (Nat.max_eq_right hle).symm⟩
            · left; rw [h5]; exact Nat.max_eq_left hle
          · right; exact ⟨f, List.mem_cons_of_mem _ hf1, hf2⟩

/-- The recorded window is that of the entries whenever it is not marked stale. -/
def Fresh (r : Rule) : Prop :=
  r.fullextent = false → r.badextent = false → extentLoop 240 0 r.map = .ok (r.start, r.stop)

theorem Fresh.of_bad {r : Rule} (h : r.badextent = !r.fullextent) : Fresh r := by
  intro h1 h2; rw [h1] at h; rw [h] at h2; simp at h2

theorem addIndex_fresh {r r' : Rule} (hr : Inv r) (hf : Fresh r) (m : Nat) (hm : m ≠ COPY)
    (h : addIndex r m = .ok r') : Fresh r' := by
  obtain ⟨r1, h1, h2, h3, h4, h5, h6⟩ :=
    add_spec hr m .index 0 0 (by simp) hm (by simp [Shape]) (fun _ b => b)
  have : r1 = r' := by
    have e : addIndex r m = .ok r1 := h1
    rw [h] at e; cases e; rfl
  subst this
  cases hfi : find r.map m with
  | some o =>
    apply Fresh.of_bad
    rw [h6 (by simp [hfi]), h4]
  | none =>
    unfold addIndex rmIfPresent at h
    rw [hfi] at h
    simp only [Res.ok_bind, Res.ok.injEq] at h
    subst h
    intro a b
    have := hf a b
    show extentLoop 240 0 (put r.map m _) = _
    unfold put addEntry
    rw [erase_self hfi]
    simp only [extentLoop]
    simpa using this

theorem addKind_fresh {r r' : Rule} (hr : Inv r) (hf : Fresh r) (m : Nat) (k : Kind) (loc scal : Nat)
    (hk : k ≠ .copy) (hm : m ≠ COPY) (hz : Shape k loc scal)
    (h : addKind r m k loc scal = .ok r') : Fresh r' := by
  have gen : ∀ r1, (do
        let r ← rmIfPresent r m
        (.ok { addEntry r m k loc scal with badextent := !r.fullextent } : Res Rule)) = .ok r1 →
        Fresh r1 := by
    intro r1 hh
    obtain ⟨r2, h1, h2, h3, h4, h5, h6⟩ := add_spec hr m k loc scal hk hm hz (fun f _ => !f)
    have : r1 = r2 := by
      rw [h1] at hh; cases hh; rfl
    subst this
    apply Fresh.of_bad
    by_cases hfi : find r.map m = none
    · rw [h5 hfi, h4]
    · rw [h6 hfi, h4]
  cases k with
  | long => have := hz.1 (Or.inl rfl); subst this; exact gen r' h
  | short => have := hz.1 (Or.inr rfl); subst this; exact gen r' h
  | float => exact gen r' h
  | index => obtain ⟨rfl, rfl⟩ := hz.2 (Or.inl rfl); exact addIndex_fresh hr hf m hm h
  | copy => exact absurd rfl hk

theorem addRules_fresh (l : Map) : ∀ {r r' : Rule}, Inv r → Fresh r → MapWF l → absMap l COPY = none →
    addRules r l = .ok r' → Fresh r' := by
  induction l with
  | nil => intro r r' _ hf _ _ h; cases h; exact hf
  | cons q qs ih =>
    intro r r' hr hf hw hc h
    obtain ⟨m, o⟩ := q
    obtain ⟨e, he⟩ := hw.nonull (m, o) List.mem_cons_self
    simp only at he; subst he
    have hk := hw.keys
    rw [List.map_cons, List.nodup_cons] at hk
    have hw' : MapWF qs := ⟨hk.2, fun p hp => hw.nonull p (List.mem_cons_of_mem _ hp),
      fun m e hp => hw.copyKey m e (List.mem_cons_of_mem _ hp),
      fun m e hp => hw.shape m e (List.mem_cons_of_mem _ hp)⟩
    have hm : m ≠ COPY := by
      rintro rfl
      simp [absMap, find] at hc
    have hc' : absMap qs COPY = none := by
      unfold absMap find at hc ⊢
      rw [List.find?_cons_of_neg (by simpa using hm)] at hc
      exact hc
    have hek : e.kind ≠ .copy := fun h => hm ((hw.copyKey m e List.mem_cons_self).mp h)
    unfold addRules at h
    cases hfi : find r.map m with
    | some o => rw [hfi] at h; exact ih hr hf hw' hc' h
    | none =>
      rw [hfi] at h
      simp only at h
      obtain ⟨r1, h1, h2, _⟩ := addKind_spec hr m e.kind e.loc e.scalLoc
        (hw.copyKey m e List.mem_cons_self) hfi (hw.shape m e List.mem_cons_self)
      rw [h1] at h
      exact ih h2 (addKind_fresh hr hf m _ _ _ hek hm (hw.shape m e List.mem_cons_self) h1) hw' hc' h

theorem extent_fresh {r r' : Rule} {n : Nat} (hf : Fresh r) (h : extent r = .ok (r', n)) :
    Fresh r' := by
  unfold extent at h
  split at h
  · cases h; exact hf
  · split at h
    · cases hx : extentLoop 240 0 r.map with
      | ok x =>
        obtain ⟨s, t⟩ := x
        rw [hx] at h
        simp only [Res.ok_bind, Res.ok.injEq, Prod.mk.injEq] at h
        obtain ⟨rfl, _⟩ := h
        intro _ _; exact hx
      | abort => rw [hx] at h; cases h
      | ub => rw [hx] at h; cases h
    · cases h; exact hf

theorem finish_fresh {r r' : Rule} {full : Bool} (hfull : r.fullextent = full)
    (h : finish r full = .ok r') : Fresh r' := by
  unfold finish at h
  split at h
  · rename_i hf
    cases h
    intro h1; simp [hfull, hf] at h1
  · cases hx : extent { r with badextent := true } with
    | ok x =>
      obtain ⟨r1, n⟩ := x
      rw [hx] at h
      simp only [Res.ok_bind, Res.ok.injEq] at h
      subst h
      exact extent_fresh (fun _ hb => by simp at hb) hx
    | abort => rw [hx] at h; cases h
    | ub => rw [hx] at h; cases h

/-- Rules reached without ever holding a header-copy item. -/
abbrev ReachNoCopy (r : Rule) : Prop := Reach (fun r => abs r COPY = none) r

theorem Reach.p {P : Rule → Prop} {r : Rule} (h : Reach P r) : P r := by cases h <;> assumption

theorem ReachNoCopy.fresh {r : Rule} (h : ReachNoCopy r) : Fresh r := by
  induction h with
  | @ctor ms full d e r h _ =>
    unfold ctor at h
    obtain ⟨r1, a1, a2, _, a4⟩ := addIndex_inv (empty_inv full) gtn (by decide)
    obtain ⟨r2, b1, b2, _, b4⟩ := addIndex_inv a2 ltn (by decide)
    obtain ⟨r3, c1, c2, c3⟩ := addAll_inv ms b2
    obtain ⟨r4, d1, d2, d3⟩ := addAll_inv (if d then defaultMetas else []) c2
    obtain ⟨r5, e1, e2, e3⟩ := addAll_inv (if e then extraMetas else []) d2
    simp only [a1, b1, c1, d1, e1, Res.ok_bind] at h
    exact finish_fresh (by rw [e3, d3, c3, b4, a4]) h
  | @ctorMap l full r hw hn hl h _ =>
    unfold ctorMap at h
    rw [countKinds_eq l hw.nonull] at h
    rw [Res.ok_bind] at h
    exact finish_fresh (by rfl) h
  | @step r op r' o hr ha h hp ih =>
    have hi := hr.inv
    cases op with
    | addLong m loc =>
      obtain ⟨r1, h1, _, _, h4, h5, h6⟩ := add_spec hi m .long loc 0 (by simp) ha (by simp [Shape]) (fun f _ => !f)
      have e : step r (.addLong m loc) = .ok (r1, .unit) := by
        show (do let r ← addLong r m loc; Res.ok (r, Out.unit)) = _
        unfold addLong; rw [h1]; rfl
      rw [h] at e; cases e
      apply Fresh.of_bad
      by_cases hfi : find r.map m = none
      · rw [h5 hfi, h4]
      · rw [h6 hfi, h4]
    | addShort m loc =>
      obtain ⟨r1, h1, _, _, h4, h5, h6⟩ := add_spec hi m .short loc 0 (by simp) ha (by simp [Shape]) (fun f _ => !f)
      have e : step r (.addShort m loc) = .ok (r1, .unit) := by
        show (do let r ← addShort r m loc; Res.ok (r, Out.unit)) = _
        unfold addShort; rw [h1]; rfl
      rw [h] at e; cases e
      apply Fresh.of_bad
      by_cases hfi : find r.map m = none
      · rw [h5 hfi, h4]
      · rw [h6 hfi, h4]
    | addFloat m loc scal =>
      obtain ⟨r1, h1, _, _, h4, h5, h6⟩ := add_spec hi m .float loc scal (by simp) ha (by simp [Shape]) (fun f _ => !f)
      have e : step r (.addFloat m loc scal) = .ok (r1, .unit) := by
        show (do let r ← addFloat r m loc scal; Res.ok (r, Out.unit)) = _
        unfold addFloat; rw [h1]; rfl
      rw [h] at e; cases e
      apply Fresh.of_bad
      by_cases hfi : find r.map m = none
      · rw [h5 hfi, h4]
      · rw [h6 hfi, h4]
    | addIndex m =>
      cases hx : addIndex r m with
      | ok r1 =>
        have e : step r (.addIndex m) = .ok (r1, .unit) := by
          show (do let r ← addIndex r m; Res.ok (r, Out.unit)) = _
          rw [hx]; rfl
        rw [h] at e; cases e
        exact addIndex_fresh hi ih m ha hx
      | abort =>
        obtain ⟨r1, h1, _⟩ := addIndex_inv hi m ha
        rw [h1] at hx; cases hx
      | ub =>
        obtain ⟨r1, h1, _⟩ := addIndex_inv hi m ha
        rw [h1] at hx; cases hx
    | addCopy =>
      obtain ⟨_, h2, _⟩ := addCopy_spec hi
      have hp0 := hr.p
      rw [if_pos hp0] at h2
      cases h
      rw [h2] at hp
      simp [aset] at hp
    | rmRule m =>
      obtain ⟨r1, h1, _, _, _, h5, h6, h7⟩ := rmRule_spec hi m
      have e : step r (.rmRule m) = .ok (r1, .unit) := by
        show (do let r ← rmRule r m; Res.ok (r, Out.unit)) = _
        rw [h1]; rfl
      rw [h] at e; cases e
      by_cases hfi : find r.map m = none
      · rw [h6 hfi]; exact ih
      · apply Fresh.of_bad; rw [h7 hfi, h5]
    | addRule m =>
      have hx : step r (.addRule m) = (do let (r, b) ← addRule r m; Res.ok (r, Out.bool b)) := rfl
      rw [hx] at h
      unfold addRule at h
      cases hfi : find r.map m with
      | some x => rw [hfi] at h; cases h; exact ih
      | none =>
        rw [hfi] at h
        cases hk : known m with
        | none => rw [hk] at h; cases h; exact ih
        | some v =>
          obtain ⟨k, loc, scal⟩ := v
          rw [hk] at h
          simp only at h
          obtain ⟨r1, h1, _, h3, _⟩ := addKind_spec hi m k loc scal (known_copy m _ hk) hfi
            (known_shape m k loc scal hk)
          rw [h1] at h
          simp only [Res.ok_bind, Res.ok.injEq, Prod.mk.injEq] at h
          obtain ⟨rfl, _⟩ := h
          have hm : m ≠ COPY := by
            rintro rfl
            rw [h3] at hp; simp [aset] at hp
          have hkc : k ≠ .copy := fun hh => hm ((known_copy m _ hk).mp hh)
          exact addKind_fresh hi ih m k loc scal hkc hm (known_shape m k loc scal hk) h1
    | addRules l => exact absurd ha (by simp [Allowed])
    | getEntry m =>
      have hne : abs r m ≠ none := ha
      cases hfi : find r.map m with
      | none => exact absurd ((abs_none_iff hi m).mpr hfi) hne
      | some x =>
        have hg : getEntry r m = (r, x) := by unfold getEntry; rw [hfi]
        have hx : step r (.getEntry m) = (let (r, e) := getEntry r m; Res.ok (r, Out.entry e)) := rfl
        rw [hx, hg] at h
        cases h; exact ih
    | extent =>
      have hx : step r .extent = (do let (r, n) ← extent r; Res.ok (r, Out.size n)) := rfl
      rw [hx] at h
      cases he : extent r with
      | ok x =>
        obtain ⟨r1, n⟩ := x
        rw [he] at h
        cases h
        exact extent_fresh ih he
      | abort => rw [he] at h; cases h
      | ub => rw [he] at h; cases h
  | @addRules r r₂ l r' hr hr₂ hperm h hp ih ih₂ =>
    have hw := MapWF.of_inv hr₂.inv hperm
    refine addRules_fresh l hr.inv ih hw ?_ h
    have h2 := (abs_none_iff hr₂.inv _).mp hr₂.p
    unfold absMap
    rw [find_none.mpr fun p hpm => find_none.mp h2 p (hperm.mem_iff.mp hpm)]

/-- Header bytes (numbered from 1) a field occupies: its value, and for a
coordinate also its scalar. -/
def Occ : Val → Nat → Prop
  | (.long, loc, _), x => loc ≤ x ∧ x < loc + 4
  | (.short, loc, _), x => loc ≤ x ∧ x < loc + 2
  | (.float, loc, scal), x => (loc ≤ x ∧ x < loc + 4) ∨ (scal ≤ x ∧ x < scal + 2)
  | (.index, _, _), _ => False
  | (.copy, _, _), x => x < 240

/-- The bytes `a` to `b` (excluded) contain every field of the rule. -/
def Window (r : Rule) (a b : Nat) : Prop := ∀ m v x, abs r m = some v → Occ v x → a ≤ x ∧ x < b

theorem occ_iff (e : Entry) (hk : e.kind ≠ .index) (a b : Nat) :
    (∀ x, Occ (entryVal e) x → a ≤ x ∧ x < b) ↔ a ≤ e.min ∧ e.max ≤ b := by
  obtain ⟨k, num, loc, scal⟩ := e
  cases k with
  | long =>
    simp only [entryVal, Occ, Entry.min, Entry.max]
    constructor
    · intro h; have h1 := h loc (by omega); have h2 := h (loc + 3) (by omega); omega
    · intro h x hx; omega
  | short =>
    simp only [entryVal, Occ, Entry.min, Entry.max]
    constructor
    · intro h; have h1 := h loc (by omega); have h2 := h (loc + 1) (by omega); omega
    · intro h x hx; omega
  | float =>
    simp only [entryVal, Occ, Entry.min, Entry.max]
    constructor
    · intro h
      have h1 := h loc (by omega); have h2 := h (loc + 3) (by omega)
      have h3 := h scal (by omega); have h4 := h (scal + 1) (by omega)
      exact ⟨Nat.le_min.mpr ⟨h3.1, h1.1⟩, Nat.max_le.mpr ⟨by omega, by omega⟩⟩
    · rintro ⟨h1, h2⟩ x hx
      have h1 := Nat.le_min.mp h1
      have h2 := Nat.max_le.mp h2
      omega
  | index => exact absurd rfl hk
  | copy =>
    simp only [entryVal, Occ, Entry.min, Entry.max]
    constructor
    · intro h; have h1 := h 0 (by omega); have h2 := h 239 (by omega); omega
    · intro h x hx; omega

theorem window_iff {r : Rule} (hr : Inv r) (a b : Nat) : Window r a b ↔ Contains r.map a b := by
  constructor
  · intro h f hf
    obtain ⟨⟨m, o⟩, hm, he⟩ := List.mem_filterMap.mp hf
    cases o with
    | none => simp at he
    | some e =>
      simp only at he
      by_cases hk : e.kind = .index
      · rw [if_pos hk] at he; cases he
      · rw [if_neg hk] at he
        cases he
        refine (occ_iff e hk a b).mp fun x hx => h m _ x ?_ hx
        unfold abs
        rw [find_of_mem hr.keys hm]
  · intro h m v x hv hx
    unfold abs at hv
    split at hv
    · rename_i e hf
      cases hv
      have hk : e.kind ≠ .index := by
        intro hk
        unfold entryVal Occ at hx
        rw [hk] at hx
        exact hx
      refine (occ_iff e hk a b).mpr ?_ x hx
      refine h (e.min, e.max) (List.mem_filterMap.mpr ⟨_, find_mem hf, ?_⟩)
      simp [hk]
    · cases hv

/-- **C13** (part, window): for a rule not covering the full header and never
having held a header-copy item, `extent()` returns the length of a window
containing every byte of every field, and no window containing every field is
shorter.  Missing: rules that hold a header copy (`C13_copy_refuted`), rules
without any field (`C13_empty_refuted`), and the in-window claim for reads and
writes (`C13_bytes_refuted`, `C13_insert_refuted`). -/
theorem C13_window_partial (r : Rule) (h : ReachNoCopy r) (hfull : r.fullextent = false)
    (hne' : ∃ m v x, abs r m = some v ∧ Occ v x)
    (hloc' : ∀ m v x, abs r m = some v → Occ v x → 1 ≤ x ∧ x ≤ 240) :
    ∃ r' n, extent r = .ok (r', n) ∧ r'.map = r.map ∧ Window r r'.start (r'.start + n) ∧
      ∀ a b, Window r a b → n ≤ b - a := by
  have hin := (window_iff h.inv 1 241).mp fun m v x hv hx => by have := hloc' m v x hv hx; omega
  have hmm : ∀ f ∈ fields r.map, f.1 < f.2 := by
    intro f hf
    obtain ⟨⟨m, o⟩, hm, he⟩ := List.mem_filterMap.mp hf
    cases o with
    | none => simp at he
    | some e =>
      simp only at he
      by_cases hk : e.kind = .index
      · rw [if_pos hk] at he; cases he
      · rw [if_neg hk] at he
        cases he
        obtain ⟨k, num, loc, scal⟩ := e
        cases k <;> simp only [Entry.min, Entry.max]
        · omega
        · omega
        · exact Nat.lt_of_le_of_lt (Nat.min_le_right scal loc)
            (Nat.lt_of_lt_of_le (by omega) (Nat.le_max_right (scal + 2) (loc + 4)))
        · exact absurd rfl hk
        · omega
  have hloc : ∀ f ∈ fields r.map, f.1 ≤ 240 ∧ f.1 ≤ f.2 ∧ f.2 < 2 ^ 64 := by
    intro f hf
    have h1 := hin f hf
    have h2 := hmm f hf
    omega
  have hne : fields r.map ≠ [] := by
    intro hc
    obtain ⟨m, v, x, hv, hx⟩ := hne'
    have := (window_iff h.inv 1 0).mpr (by simp [Contains, hc]) m v x hv hx
    omega
  obtain ⟨r', n, e1, e2, e3, e4⟩ : ∃ r' n, extent r = .ok (r', n) ∧ r'.map = r.map ∧
      (Contains r.map r'.start (r'.start + n)) ∧ ∀ a b, Contains r.map a b → n ≤ b - a := by
    have fin : ∀ s t, extentLoop 240 0 r.map = .ok (s, t) →
        Contains r.map s (s + (t - s)) ∧ sub64 t s = t - s ∧ ∀ a b, Contains r.map a b → t - s ≤ b - a := by
      intro s t hx
      obtain ⟨h1, h2, h3, h4, h5⟩ := extentLoop_spec _ _ _ _ _ hx
      obtain ⟨f0, hf0⟩ := List.exists_mem_of_ne_nil _ hne
      have l0 := hloc f0 hf0
      have c0 := h3 f0 hf0
      have hs : ∃ f ∈ fields r.map, f.1 = s := by
        rcases h4 with h4 | h4
        · exact ⟨f0, hf0, by omega⟩
        · exact h4
      have ht : t < 2 ^ 64 := by
        rcases h5 with h5 | ⟨f, hf, he⟩
        · omega
        · have := (hloc f hf).2.2; omega
      refine ⟨by rw [show s + (t - s) = t by omega]; exact h3, sub64_eq (by omega) ht, ?_⟩
      intro a b hab
      obtain ⟨f, hf, he⟩ := hs
      have := hab f hf
      rcases h5 with h5 | ⟨g, hg, he'⟩
      · omega
      · have := hab g hg; omega
    unfold extent
    rw [hfull]
    simp only [Bool.false_eq_true, if_false]
    cases hb : r.badextent with
    | true =>
      obtain ⟨⟨s, t⟩, hx⟩ := extentLoop_ok r.map h.inv.nonull 240 0
      obtain ⟨f1, f2, f3⟩ := fin s t hx
      simp only [if_true, hx, Res.ok_bind]
      exact ⟨_, _, rfl, rfl, by rw [f2]; exact f1, fun a b hab => f2 ▸ f3 a b hab⟩
    | false =>
      obtain ⟨f1, f2, f3⟩ := fin r.start r.stop (h.fresh hfull hb)
      simp only [Bool.false_eq_true, if_false]
      exact ⟨_, _, rfl, rfl, by rw [f2]; exact f1, fun a b hab => f2 ▸ f3 a b hab⟩
  exact ⟨r', n, e1, e2, (window_iff h.inv _ _).mpr e3, fun a b hab => e4 a b ((window_iff h.inv _ _).mp hab)⟩

/-- A rule with source and receiver x only: window bytes 71 to 85. -/
example : ∃ r, ctor [20, 22] false false false = .ok r ∧ ReachNoCopy r ∧ r.fullextent = false ∧
    abs r 20 = some (.float, 73, 71) ∧ abs r 22 = some (.float, 81, 71) ∧ Occ (.float, 73, 71) 72 ∧
    r.map.map Prod.fst = [22, 20, ltn, gtn] ∧ (∃ r', extent r = .ok (r', 14)) :=
  ⟨_, rfl, Reach.ctor (ms := [20, 22]) (full := false) (d := false) (e := false) rfl rfl, rfl, rfl, rfl,
    by simp [Occ], rfl, _, rfl⟩

theorem bind_inv {α β : Type} {x : Res α} {f : α → Res β} {b : β} (h : (x >>= f) = .ok b) :
    ∃ a, x = .ok a ∧ f a = .ok b := by
  cases x with
  | ok a => exact ⟨a, rfl, h⟩
  | ub => cases h
  | abort => cases h

/-- The rule covers the header and says so. -/
def Whole (r : Rule) : Prop := r.fullextent = true ∧ r.start = 0 ∧ r.stop = 240 ∧ r.badextent = false

theorem Whole.rm {r r' : Rule} {m : Nat} (h : Whole r) (e : rmRule r m = .ok r') : Whole r' := by
  obtain ⟨h1, h2, h3, h4⟩ := h
  unfold rmRule at e
  split at e
  · cases e; exact ⟨h1, h2, h3, h4⟩
  · cases e
  · obtain ⟨l, e1, e2⟩ := bind_inv e
    cases e2
    exact ⟨h1, h2, h3, by simp [h1]⟩

theorem Whole.rmIf {r r' : Rule} {m : Nat} (h : Whole r) (e : rmIfPresent r m = .ok r') : Whole r' := by
  unfold rmIfPresent at e
  split at e
  · cases e; exact h
  · exact h.rm e

theorem Whole.kind {r r' : Rule} {m : Nat} {k : Kind} {loc scal : Nat} (h : Whole r)
    (e : addKind r m k loc scal = .ok r') : Whole r' := by
  cases k with
  | copy =>
    cases e
    obtain ⟨h1, h2, h3, h4⟩ := h
    unfold addCopy
    split <;> exact ⟨h1, h2, h3, h4⟩
  | index =>
    obtain ⟨r1, e1, e2⟩ := bind_inv (show addIndex r m = .ok r' from e)
    obtain ⟨h1, h2, h3, h4⟩ := h.rmIf e1
    cases e2
    exact ⟨h1, h2, h3, h4⟩
  | long =>
    obtain ⟨r1, e1, e2⟩ := bind_inv (show addLong r m loc = .ok r' from e)
    obtain ⟨h1, h2, h3, h4⟩ := h.rmIf e1
    cases e2
    exact ⟨h1, h2, h3, by simp [h1]⟩
  | short =>
    obtain ⟨r1, e1, e2⟩ := bind_inv (show addShort r m loc = .ok r' from e)
    obtain ⟨h1, h2, h3, h4⟩ := h.rmIf e1
    cases e2
    exact ⟨h1, h2, h3, by simp [h1]⟩
  | float =>
    obtain ⟨r1, e1, e2⟩ := bind_inv (show addFloat r m loc scal = .ok r' from e)
    obtain ⟨h1, h2, h3, h4⟩ := h.rmIf e1
    cases e2
    exact ⟨h1, h2, h3, by simp [h1]⟩

theorem Whole.rules (l : Map) : ∀ {r r' : Rule}, Whole r → addRules r l = .ok r' → Whole r' := by
  induction l with
  | nil => intro r r' h e; cases e; exact h
  | cons q l ih =>
    intro r r' h e
    obtain ⟨m, o⟩ := q
    unfold addRules at e
    split at e
    · exact ih h e
    · split at e
      · cases e
      · obtain ⟨r1, e1, e2⟩ := bind_inv e
        exact ih (h.kind e1) e2

theorem Whole.step {r r' : Rule} {op : Op} {o : Out} (h : Whole r) (e : step r op = .ok (r', o)) : Whole r' := by
  cases op with
  | addLong m loc =>
    obtain ⟨r1, e1, e2⟩ := bind_inv e
    cases e2
    exact h.kind (k := .long) (scal := 0) e1
  | addShort m loc =>
    obtain ⟨r1, e1, e2⟩ := bind_inv e
    cases e2
    exact h.kind (k := .short) (scal := 0) e1
  | addFloat m loc scal =>
    obtain ⟨r1, e1, e2⟩ := bind_inv e
    cases e2
    exact h.kind (k := .float) e1
  | addIndex m =>
    obtain ⟨r1, e1, e2⟩ := bind_inv e
    cases e2
    exact h.kind (k := .index) (loc := 0) (scal := 0) e1
  | addCopy =>
    cases e
    exact h.kind (m := 0) (k := .copy) (loc := 0) (scal := 0) rfl
  | rmRule m =>
    obtain ⟨r1, e1, e2⟩ := bind_inv e
    cases e2
    exact h.rm e1
  | addRule m =>
    obtain ⟨⟨r1, b⟩, e1, e2⟩ := bind_inv e
    cases e2
    unfold addRule at e1
    split at e1
    · cases e1; exact h
    · split at e1
      · cases e1; exact h
      · obtain ⟨r2, e3, e4⟩ := bind_inv e1
        cases e4
        exact h.kind e3
  | addRules l =>
    obtain ⟨r1, e1, e2⟩ := bind_inv e
    cases e2
    exact Whole.rules l h e1
  | getEntry m =>
    obtain ⟨h1, h2, h3, h4⟩ := h
    have e' : Res.ok ((getEntry r m).1, Out.entry (getEntry r m).2) = Res.ok (r', o) := e
    simp only [Res.ok.injEq, Prod.mk.injEq] at e'
    rw [← e'.1]
    unfold getEntry
    split <;> exact ⟨h1, h2, h3, h4⟩
  | extent =>
    obtain ⟨⟨r1, n⟩, e1, e2⟩ := bind_inv e
    cases e2
    unfold extent at e1
    rw [if_pos h.1] at e1
    cases e1
    exact h

/-- **C13**, the other case: a rule made for the full header keeps the window
of bytes 0 to 240, header copy or not and whatever is added, removed or looked
up, and `extent()` returns 240. -/
theorem C13_full (ms : List Nat) (d e : Bool) (r : Rule) (h : ctor ms true d e = .ok r) (ops : List Op)
    (r' : Rule) (os : List Out) (hr : run r ops = .ok (r', os)) :
    r'.start = 0 ∧ r'.stop = 240 ∧ extent r' = .ok (r', 240) := by
  have h0 : Whole r := by
    obtain ⟨r6, g1, -, g2⟩ := ctor_inv ms true d e
    rw [h] at g1
    cases g1
    unfold ctor at h
    obtain ⟨r1, -, h⟩ := bind_inv h
    obtain ⟨r2, -, h⟩ := bind_inv h
    obtain ⟨r3, -, h⟩ := bind_inv h
    obtain ⟨r4, -, h⟩ := bind_inv h
    obtain ⟨r5, -, h'⟩ := bind_inv h
    unfold finish at h'
    rw [if_pos rfl] at h'
    cases h'
    exact ⟨g2, rfl, rfl, rfl⟩
  have key : ∀ (ops : List Op) (r : Rule) (os : List Out), Whole r → run r ops = .ok (r', os) → Whole r' := by
    intro ops
    induction ops with
    | nil => intro r os hw e; cases e; exact hw
    | cons op ops ih =>
      intro r os hw e
      unfold run at e
      obtain ⟨⟨r1, o⟩, e1, e2⟩ := bind_inv e
      obtain ⟨⟨r2, os'⟩, e3, e4⟩ := bind_inv e2
      cases e4
      exact ih r1 os' (hw.step e1) e3
  obtain ⟨k1, k2, k3, k4⟩ := key ops r os h0 hr
  refine ⟨k2, k3, ?_⟩
  unfold extent
  rw [if_pos k1]

/-- Copying the header, removing and adding items on the default rule. -/
example : ∃ r r' os, ctor [] true true false = .ok r ∧
    run r [.addCopy, .rmRule 20, .addLong 26 1, .extent] = .ok (r', os) ∧ os.getLast? = some (.size 240) :=
  ⟨_, _, _, rfl, rfl, rfl⟩

/-- **C13** refuted for header copies: after the extent was computed, enabling
the header copy does not make it stale, and `extent()` keeps returning the old
window although the copy covers the whole header. -/
theorem C13_copy_refuted :
    ∃ r r' r'', ctor [20, 22] false false false = .ok r ∧ addCopy r = r' ∧ extent r' = .ok (r'', 14) ∧
      (0, 240) ∈ fields r''.map := by
  refine ⟨_, _, _, rfl, rfl, rfl, ?_⟩
  decide

/-- **C13** refuted for rules without fields: the window is inverted and
`extent()` returns `2^64 - 240`. -/
theorem C13_empty_refuted :
    ∃ r r', ctor [] false false false = .ok r ∧ fields r.map = [] ∧ extent r = .ok (r', 2 ^ 64 - 240) :=
  ⟨_, _, rfl, rfl, rfl⟩

end Verif.Rules
