import Verif.Util.MinMaxTool
import Verif.Props.MinMax
import Verif.Props.NonMono
import Verif.Props.Decomp
import Verif.Props.Writer

/-!
C77: the tool that writes the headers of the traces with the smallest and largest coordinates.
-/

namespace Verif.Extremes
open Verif.Rules Verif.Params Verif.Files Verif.Ops Verif.Decomp Verif.Endian Verif.Layout

variable {F : Type}

/-- The two bytes from position `loc` (counted from one) of the header of trace `t`. -/
def be16 (d : Disk) (ns t loc : Nat) : BitVec 16 :=
  fromBE16 (d.byte (3600 + t * (240 + 4 * ns) + (loc - 1))) (d.byte (3600 + t * (240 + 4 * ns) + (loc - 1 + 1)))

/-- The four bytes from position `loc` (counted from one) of the header of trace `t`. -/
def be32 (d : Disk) (ns t loc : Nat) : BitVec 32 :=
  fromBE32 (d.byte (3600 + t * (240 + 4 * ns) + (loc - 1))) (d.byte (3600 + t * (240 + 4 * ns) + (loc - 1 + 1)))
    (d.byte (3600 + t * (240 + 4 * ns) + (loc - 1 + 2))) (d.byte (3600 + t * (240 + 4 * ns) + (loc - 1 + 3)))

/-- Where the standard has the coordinates: source x and y, receiver x and y, midpoint x and y. -/
def place : List Nat := [73, 77, 81, 85, 181, 185]

/-- Coordinate `k` of trace `t`, with the scalar at position 71. -/
def coord (ops : FloatOps F) (d : Disk) (ns t k : Nat) : F :=
  ops.decode (be16 d ns t 71) (be32 d ns t (place[k]?.getD 0))

/-- What the six coordinates and three numbers of the default rule hold for trace `t`. -/
def Shows (ops : FloatOps F) (d : Disk) (ns t : Nat) (p : Param F) (row : Nat) : Prop :=
  (∀ k, k < 6 → ∀ (T : Type) (cv : Conv F T), getPrm cv row (20 + k) p = .ok (cv.ofF (coord ops d ns t k))) ∧
  (∀ m loc, (m, loc) ∈ [(14, 37), (26, 189), (27, 193)] → ∀ (T : Type) (cv : Conv F T),
    getPrm cv row m p = .ok (cv.ofI ((be32 d ns t loc).signExtend 64))) ∧
  ∀ (T : Type) (cv : Conv F T), getPrm cv row ltn p = .ok (cv.ofT (BitVec.ofNat 64 t))

/-! ## The default rule -/

/-- The default rule. -/
def dr : Rule := okOr ⟨[], fun _ => 0, 0, 0, false, true⟩ (ctor [] true true false)

theorem ctor_default : ctor [] true true false = .ok dr := rfl

theorem dr_reach : Reachable dr := Reach.ctor ctor_default trivial

theorem dr_full : dr.fullextent = true := rfl
theorem dr_start : dr.start = 0 := rfl
theorem dr_copy : dr.cnt .copy = 0 := by decide +kernel

theorem dr_known : KnownOnly dr := by
  have hm : ∀ p ∈ dr.map, ∃ e, p.2 = some e ∧ (e.kind = .index ∨ known p.1 = some (entryVal e)) := by
    decide +kernel
  intro m v hv
  obtain ⟨e, he, rfl⟩ := entry_of_abs hv
  obtain ⟨e', h1, h2⟩ := hm _ he
  cases h1
  exact h2

theorem dr_float : ∀ k, k < 6 → ∃ e, (20 + k, some e) ∈ dr.map ∧ e.kind = .float ∧
    e.loc = place[k]?.getD 0 ∧ e.scalLoc = 71 := by
  have h : ∀ k ∈ List.range 6, ∃ q ∈ dr.map, q.1 = 20 + k ∧ ∃ e, q.2 = some e ∧ e.kind = .float ∧
    e.loc = place[k]?.getD 0 ∧ e.scalLoc = 71 := by decide +kernel
  intro k hk
  obtain ⟨q, h1, h2, e, h3, h4⟩ := h k (List.mem_range.2 hk)
  exact ⟨e, by rw [← h2, ← h3]; exact h1, h4⟩

theorem dr_long : ∀ m loc, (m, loc) ∈ [(14, 37), (26, 189), (27, 193), (5, 5)] → ∃ e, (m, some e) ∈ dr.map ∧
    e.kind = .long ∧ e.loc = loc := by
  have h : ∀ x ∈ [(14, 37), (26, 189), (27, 193), (5, 5)], ∃ q ∈ dr.map, q.1 = x.1 ∧ ∃ e, q.2 = some e ∧
    e.kind = .long ∧ e.loc = x.2 := by decide +kernel
  intro m loc hx
  obtain ⟨q, h1, h2, e, h3, h4⟩ := h _ hx
  exact ⟨e, by rw [show m = q.1 from h2.symm, ← h3]; exact h1, h4⟩

theorem dr_ltn : ∃ e, (ltn, some e) ∈ dr.map ∧ e.kind = .index := by
  have h : ∃ q ∈ dr.map, q.1 = ltn ∧ ∃ e, q.2 = some e ∧ e.kind = .index := by decide +kernel
  obtain ⟨q, h1, h2, e, h3, h4⟩ := h
  exact ⟨e, by rw [← h2, ← h3]; exact h1, h4⟩

theorem abs_mem {r : Rule} (hr : Inv r) {m : Nat} {e : Entry} (h : (m, some e) ∈ r.map) :
    Rules.abs r m = some (entryVal e) := by
  unfold Rules.abs; rw [find_of_mem hr.keys h]

attribute [irreducible] dr

theorem dr_ok (zero : F) (n : Nat) : RdOk (mk zero dr n) :=
  ⟨mk_wf zero dr_reach.inv n, C12_known_layout dr dr_reach.inv dr_known, dr_full, dr_start, dr_ltn⟩

/-- A row read from the file holds what the header says. -/
theorem shows_of_read {ops : FloatOps F} {d : Disk} {ns : Nat} {w : Where} {n i : Nat} {q q' : Param F}
    (h : RowsRead ops d ns w n 0 q q') (hq : q.rule = dr) (hn : n ≤ q.sz) (hi : i < n) :
    Shows ops d ns (w.trace i) q' i := by
  have hr : q'.rule = dr := h.rule.trans hq
  have hrow : i < q'.sz := by rw [h.size]; omega
  have hdec := h.dec i hi
  rw [hq, Nat.add_zero] at hdec
  refine ⟨?_, ?_, ?_⟩
  · intro k hk T cv
    obtain ⟨e, h1, h2, h3, h4⟩ := dr_float k hk
    rw [getPrm_item cv q' h.wf (by rw [hr]; exact h1) hrow]
    have := (hdec _ e h1).2.2 h2
    unfold item
    simp only [h2, ofItem]
    rw [Nat.mul_comm, this, h3, h4]
    simp only [Nat.zero_add]
    rfl
  · intro m loc hm T cv
    obtain ⟨e, h1, h2, h3⟩ := dr_long m loc (by simp only [List.mem_cons] at hm ⊢; tauto)
    rw [getPrm_item cv q' h.wf (by rw [hr]; exact h1) hrow]
    have := (hdec _ e h1).2.1 h2
    unfold item
    simp only [h2, ofItem]
    rw [Nat.mul_comm, this, h3]
    simp only [Nat.zero_add]
    rfl
  · intro T cv
    obtain ⟨e, h1, h2⟩ := dr_ltn
    rw [getPrm_item cv q' h.wf (by rw [hr]; exact h1) hrow]
    have := h.number i e hi (by rw [hq]; exact h1)
    unfold item
    simp only [h2, ofItem]
    rw [hr, ← hq]
    rw [Nat.add_zero] at this
    rw [this]

/-! ## Smallest and largest of two items -/

theorem pairs_spec (ops : FloatOps F) (cv : Conv F F) (zero : F) (m1 m2 : Nat) (p : Param F) (hp : WF p)
    (hc : p.rule.cnt .copy ≠ 0 → HdrLayout p.rule ∧ p.rule.fullextent = true ∧ p.rule.start = 0 ∧ p.c.len ≤ 2 ^ 64)
    (h1 : Rules.abs p.rule m1 ≠ none) (h2 : Rules.abs p.rule m2 ≠ none) (f g : Nat → F)
    (hf : ∀ i, i < p.sz → getPrm cv i m1 p = .ok (f i)) (hg : ∀ i, i < p.sz → getPrm cv i m2 p = .ok (g i)) :
    ∀ (n i : Nat), i + n ≤ p.sz →
      pairs ops cv zero m1 m2 p i n = .ok ((List.range' i n).map fun t => (f t, g t)) := by
  intro n
  induction n with
  | zero => intro i _; rfl
  | succ n ih =>
    intro i hi
    obtain ⟨q, c1, -, -, -, c5, -, -⟩ := C16_copy_partial ops p (mk zero p.rule 1) hp (mk_wf zero hp.inv 1) i 0 (by omega)
      (by show 0 < 1; omega) true (fun _ => rfl) hc
    obtain ⟨v1, a1⟩ := Option.ne_none_iff_exists'.1 h1
    obtain ⟨v2, a2⟩ := Option.ne_none_iff_exists'.1 h2
    have g1 := (c5 m1 v1 v1 a1 a1 rfl).1 F cv
    have g2 := (c5 m2 v2 v2 a2 a2 rfl).1 F cv
    unfold pairs
    rw [c1, Res.ok_bind]
    unfold pairOf
    rw [g1, g2, hf i (by omega), hg i (by omega), Res.ok_bind, Res.ok_bind, Res.ok_bind, ih (i + 1) (by omega),
      Res.ok_bind, List.range'_succ]
    rfl

/-- What a process holds: its traces are those from `s.1`; `X` and `Y` are the items `m1` and `m2` of all traces. -/
structure Holding (cv : Conv F F) (m1 m2 : Nat) (X Y : Nat → F) (s : Nat × Nat × Param F) : Prop where
  wf : WF s.2.2
  size : s.2.2.sz = s.2.1
  copy : s.2.2.rule.cnt .copy ≠ 0 → HdrLayout s.2.2.rule ∧ s.2.2.rule.fullextent = true ∧ s.2.2.rule.start = 0 ∧
    s.2.2.c.len ≤ 2 ^ 64
  first : Rules.abs s.2.2.rule m1 ≠ none
  second : Rules.abs s.2.2.rule m2 ≠ none
  vals : ∀ i, i < s.2.1 → getPrm cv i m1 s.2.2 = .ok (X (s.1 + i)) ∧ getPrm cv i m2 s.2.2 = .ok (Y (s.1 + i))

/-- What a process of the tool holds: the coordinates are `X`. -/
structure Held (cv : Conv F F) (X : Nat → Nat → F) (s : Nat × Nat × Param F) : Prop where
  wf : WF s.2.2
  size : s.2.2.sz = s.2.1
  rule : s.2.2.rule = dr
  vals : ∀ i, i < s.2.1 → ∀ k, k < 6 → getPrm cv i (20 + k) s.2.2 = .ok (X (s.1 + i) k)

theorem dr_abs {k : Nat} (hk : k < 6) : Rules.abs dr (20 + k) ≠ none := by
  obtain ⟨e, h, -⟩ := dr_float k hk
  rw [abs_mem dr_reach.inv h]
  simp

theorem Held.holding {cv : Conv F F} {X : Nat → Nat → F} {s : Nat × Nat × Param F} (h : Held cv X s) {a b : Nat}
    (ha : a < 6) (hb : b < 6) : Holding cv (20 + a) (20 + b) (X · a) (X · b) s :=
  ⟨h.wf, h.size, fun hc => absurd (by rw [h.rule]; exact dr_copy) hc, by rw [h.rule]; exact dr_abs ha, by rw [h.rule]; exact dr_abs hb,
    fun i hi => ⟨h.vals i hi a ha, h.vals i hi b hb⟩⟩

theorem share_spec (ops : FloatOps F) (cv : Conv F F) (zero : F) {m1 m2 : Nat} {X Y : Nat → F}
    (s : Nat × Nat × Param F) (hs : Holding cv m1 m2 X Y s)
    (h0 : s.2.1 = 0 → Rules.abs dr m1 ≠ none ∧ Rules.abs dr m2 ≠ none) :
    share ops cv zero m1 m2 s = .ok (s.1, (List.range' 0 s.2.1).map fun i => (X (s.1 + i), Y (s.1 + i))) := by
  unfold share
  by_cases hz : s.2.1 = 0
  · rw [if_pos hz, ctor_default, Res.ok_bind]
    unfold pairOf
    obtain ⟨v1, a1⟩ := Option.ne_none_iff_exists'.1 (h0 hz).1
    obtain ⟨v2, a2⟩ := Option.ne_none_iff_exists'.1 (h0 hz).2
    obtain ⟨e, he, -⟩ := entry_of_abs a1
    obtain ⟨e', he', -⟩ := entry_of_abs a2
    rw [getPrm_item cv (mk zero dr 1) (dr_ok zero 1).wf he (show 0 < 1 by omega),
      getPrm_item cv (mk zero dr 1) (dr_ok zero 1).wf he' (show 0 < 1 by omega), hz]
    rfl
  · rw [if_neg hz, pairs_spec ops cv zero m1 m2 s.2.2 hs.wf hs.copy hs.first hs.second (fun i => X (s.1 + i))
      (fun i => Y (s.1 + i)) (fun i hi => (hs.vals i (by rw [← hs.size]; exact hi)).1)
      (fun i hi => (hs.vals i (by rw [← hs.size]; exact hi)).2) s.2.1 0 (by rw [hs.size]; omega), Res.ok_bind]

theorem shares_spec (ops : FloatOps F) (cv : Conv F F) (zero : F) {m1 m2 : Nat} {X Y : Nat → F}
    (ps : List (Nat × Nat × Param F)) (hs : ∀ s ∈ ps, Holding cv m1 m2 X Y s)
    (h0 : ∀ s ∈ ps, s.2.1 = 0 → Rules.abs dr m1 ≠ none ∧ Rules.abs dr m2 ≠ none) :
    shares ops cv zero m1 m2 ps =
      .ok (ps.map fun s => (s.1, (List.range' 0 s.2.1).map fun i => (X (s.1 + i), Y (s.1 + i)))) := by
  induction ps with
  | nil => rfl
  | cons s ps ih =>
    unfold shares
    rw [share_spec ops cv zero s (hs s (by simp)) (h0 s (by simp)), Res.ok_bind,
      ih (fun t ht => hs t (by simp [ht])) (fun t ht => h0 t (by simp [ht])), Res.ok_bind]
    rfl

variable [LinearOrder F]

/-- Trace `lo` is the smallest and `hi` the largest of `nt`. -/
def Spans (X : Nat → F) (nt lo hi : Nat) : Prop :=
  lo < nt ∧ hi < nt ∧ ∀ t, t < nt → X lo ≤ X t ∧ X t ≤ X hi

/-- **C77** (part), the function of the library: for any two items of any rule, with any number of processes and any
division of the traces among them, the numbers given are those of traces with the smallest and the largest first item and
the smallest and the largest second item, and the values given are these items. The items have to be among those of the
default rule if there is a process without traces (`C77_absent_refuted`). -/
theorem C77_items_partial (ops : FloatOps F) (cv : Conv F F) (zero : F) (m1 m2 : Nat) (X Y : Nat → F)
    (ps : List (Nat × Nat × Param F)) (hs : ∀ s ∈ ps, Holding cv m1 m2 X Y s)
    (h0 : ∀ s ∈ ps, s.2.1 = 0 → Rules.abs dr m1 ≠ none ∧ Rules.abs dr m2 ≠ none) (nt : Nat) (hnt : 0 < nt)
    (h64 : nt < 2 ^ 64) (hin : ∀ s ∈ ps, s.1 + s.2.1 ≤ nt)
    (hcov : ∀ t, t < nt → ∃ s ∈ ps, s.1 ≤ t ∧ t < s.1 + s.2.1) :
    ∃ e0 e1 e2 e3 : Elem F, metaMinMax ops cv zero m1 m2 ps = .ok [e0, e1, e2, e3] ∧
      Spans X nt e0.num e1.num ∧ Spans Y nt e2.num e3.num ∧
      e0.val = X e0.num ∧ e1.val = X e1.num ∧ e2.val = Y e2.num ∧ e3.val = Y e3.num := by
  have key : ∀ (e1 e2 : F × F → F) (Z : Nat → F), (∀ t, e1 (X t, Y t) = Z t) →
      let r := getCoordMinMax zero e1 e2 (ps.map fun s => (s.1, (List.range' 0 s.2.1).map fun i =>
        (X (s.1 + i), Y (s.1 + i))))
      Spans Z nt r.1.num r.2.num ∧ r.1.val = Z r.1.num ∧ r.2.val = Z r.2.num := by
    intro e1 e2 Z he
    have hmem : ∀ t, t < nt → ∃ q ∈ (ps.map fun s => (s.1, (List.range' 0 s.2.1).map fun i =>
        (X (s.1 + i), Y (s.1 + i)))), (X t, Y t) ∈ q.2 := by
      intro t ht
      obtain ⟨s, hs, h1, h2⟩ := hcov t ht
      refine ⟨_, List.mem_map.2 ⟨s, hs, rfl⟩, List.mem_map.2 ⟨t - s.1, ?_, ?_⟩⟩
      · rw [List.mem_range'_1]; omega
      · rw [show s.1 + (t - s.1) = t by omega]
    have hel : ∀ q ∈ (ps.map fun s => (s.1, (List.range' 0 s.2.1).map fun i => (X (s.1 + i), Y (s.1 + i)))),
        ∀ i x, q.2[i]? = some x → q.1 + i < nt ∧ e1 x = Z (q.1 + i) := by
      intro q hq i x hx
      obtain ⟨s, hs, rfl⟩ := List.mem_map.1 hq
      simp only [List.getElem?_map, Option.map_eq_some_iff] at hx
      obtain ⟨j, hj, rfl⟩ := hx
      obtain ⟨hl, hj⟩ := List.getElem?_eq_some_iff.1 hj
      rw [List.length_range'] at hl
      rw [List.getElem_range'] at hj
      have := hin s hs
      rw [show j = i by omega]
      exact ⟨by show s.1 + i < nt; omega, he _⟩
    obtain ⟨⟨p, hp, i, x, m1, m2, m3, -⟩, ⟨p', hp', i', x', n1, n2, n3, -⟩⟩ := C37_minmax_partial zero e1 e2
      (ps.map fun s => (s.1, (List.range' 0 s.2.1).map fun i => (X (s.1 + i), Y (s.1 + i)))) (by
        intro q hq
        obtain ⟨s, hs, rfl⟩ := List.mem_map.1 hq
        have := hin s hs
        simp only [List.length_map, List.length_range']
        omega) (by
        obtain ⟨q, hq, hx⟩ := hmem 0 hnt
        exact ⟨q, hq, List.ne_nil_of_mem hx⟩)
    simp only
    rw [m2, n2]
    have k1 := hel p hp i x m1
    have k2 := hel p' hp' i' x' n1
    refine ⟨⟨k1.1, k2.1, fun t ht => ?_⟩, k1.2, k2.2⟩
    obtain ⟨q, hq, hx⟩ := hmem t ht
    have l1 := m3 q hq _ hx
    have l2 := n3 q hq _ hx
    rw [he] at l1 l2
    rw [k1.2] at l1
    rw [k2.2] at l2
    exact ⟨l1, l2⟩
  have k1 := key Prod.fst Prod.snd X (fun _ => rfl)
  have k2 := key Prod.snd Prod.fst Y (fun _ => rfl)
  refine ⟨_, _, _, _, ?_, k1.1, k2.1, k1.2.1, k1.2.2, k2.2.1, k2.2.2⟩
  unfold metaMinMax
  rw [shares_spec ops cv zero ps hs h0, Res.ok_bind]
  rfl

omit [LinearOrder F] in
/-- A process without traces makes the whole call undefined if the default rule lacks one of the items. -/
theorem shares_absent (ops : FloatOps F) (cv : Conv F F) (zero : F) (m1 m2 : Nat) (X Y : Nat → F)
    (ps : List (Nat × Nat × Param F)) (hs : ∀ s ∈ ps, Holding cv m1 m2 X Y s) (s : Nat × Nat × Param F) (hm : s ∈ ps)
    (h0 : s.2.1 = 0) (ha : Rules.abs dr m1 = none ∨ Rules.abs dr m2 = none) :
    shares ops cv zero m1 m2 ps = .ub := by
  have hno : ∀ m, Rules.abs dr m = none → getPrm cv 0 m (mk zero dr 1) = .ub := by
    intro m hm
    have := (abs_none_iff dr_reach.inv m).1 hm
    unfold getPrm getEntry
    rw [show (mk zero dr 1).rule = dr from rfl, this]
  have hub : ∀ q ∈ ps, q.2.1 = 0 → share ops cv zero m1 m2 q = .ub := by
    intro q _ hz
    unfold share
    rw [if_pos hz, ctor_default, Res.ok_bind]
    unfold pairOf
    rcases ha with ha | ha
    · rw [hno m1 ha]; rfl
    · rw [hno m2 ha]
      cases h1 : Rules.abs dr m1 with
      | none => rw [hno m1 h1]; rfl
      | some v =>
        obtain ⟨e, he, -⟩ := entry_of_abs h1
        rw [getPrm_item cv (mk zero dr 1) (dr_ok zero 1).wf he (show 0 < 1 by omega)]
        rfl
  clear ha hno
  induction ps with
  | nil => cases hm
  | cons q ps ih =>
    unfold shares
    by_cases hz : q.2.1 = 0
    · rw [hub q (by simp) hz]; rfl
    · rcases List.mem_cons.1 hm with rfl | hm
      · exact absurd h0 hz
      · rw [share_spec ops cv zero q (hs q (by simp)) fun h => absurd h hz, Res.ok_bind,
          ih (fun t ht => hs t (by simp [ht])) hm fun t ht => hub t (by simp [ht])]
        rfl

/-- The items of traces of a process without any are taken from an object of the default rule: with an item that rule
does not have this reads through a null pointer (undefined), whatever the other processes hold. -/
theorem C77_absent_refuted (ops : FloatOps F) (cv : Conv F F) (zero : F) (m1 m2 : Nat) (X Y : Nat → F)
    (ps : List (Nat × Nat × Param F)) (hs : ∀ s ∈ ps, Holding cv m1 m2 X Y s) (s : Nat × Nat × Param F) (hm : s ∈ ps)
    (h0 : s.2.1 = 0) (ha : Rules.abs dr m1 = none ∨ Rules.abs dr m2 = none) :
    metaMinMax ops cv zero m1 m2 ps = .ub := by
  unfold metaMinMax
  rw [shares_absent ops cv zero m1 m2 X Y ps hs s hm h0 ha]
  rfl

/-- Smallest and largest of the coordinates of all processes. -/
theorem extremes_spec (ops : FloatOps F) (cv : Conv F F) (zero : F) (X : Nat → Nat → F)
    (ps : List (Nat × Nat × Param F)) (hs : ∀ s ∈ ps, Held cv X s) (nt : Nat) (hnt : 0 < nt)
    (h64 : nt < 2 ^ 64) (hin : ∀ s ∈ ps, s.1 + s.2.1 ≤ nt)
    (hcov : ∀ t, t < nt → ∃ s ∈ ps, s.1 ≤ t ∧ t < s.1 + s.2.1) :
    ∃ nums, extremes ops cv zero ps = .ok nums ∧ nums.length = 12 ∧ (∀ t ∈ nums, t < nt) ∧
      ∀ k, k < 6 → ∃ lo hi, nums[2 * k]? = some lo ∧ nums[2 * k + 1]? = some hi ∧ Spans (X · k) nt lo hi := by
  have hm : ∀ a b, a < 6 → b < 6 → ∃ e0 e1 e2 e3 : Elem F, metaMinMax ops cv zero (20 + a) (20 + b) ps =
      .ok [e0, e1, e2, e3] ∧ Spans (X · a) nt e0.num e1.num ∧ Spans (X · b) nt e2.num e3.num := by
    intro a b ha hb
    obtain ⟨e0, e1, e2, e3, h1, h2, h3, -⟩ := C77_items_partial ops cv zero (20 + a) (20 + b) (X · a) (X · b) ps
      (fun s h => (hs s h).holding ha hb) (fun _ _ _ => ⟨dr_abs ha, dr_abs hb⟩) nt hnt h64 hin hcov
    exact ⟨e0, e1, e2, e3, h1, h2, h3⟩
  obtain ⟨a0, a1, a2, a3, e1, s0, s1⟩ := hm 0 1 (by omega) (by omega)
  obtain ⟨b0, b1, b2, b3, e2, s2, s3⟩ := hm 2 3 (by omega) (by omega)
  obtain ⟨c0, c1, c2, c3, e3, s4, s5⟩ := hm 4 5 (by omega) (by omega)
  refine ⟨_, by unfold extremes; rw [e1, Res.ok_bind, e2, Res.ok_bind, e3, Res.ok_bind], rfl, ?_, ?_⟩
  · intro t ht
    simp only [List.cons_append, List.nil_append, List.map_cons, List.map_nil, List.mem_cons, List.not_mem_nil,
      or_false] at ht
    have := s0.1; have := s0.2.1; have := s1.1; have := s1.2.1; have := s2.1; have := s2.2.1
    have := s3.1; have := s3.2.1; have := s4.1; have := s4.2.1; have := s5.1; have := s5.2.1
    omega
  · intro k hk
    match k, hk with
    | 0, _ => exact ⟨_, _, rfl, rfl, s0⟩
    | 1, _ => exact ⟨_, _, rfl, rfl, s1⟩
    | 2, _ => exact ⟨_, _, rfl, rfl, s2⟩
    | 3, _ => exact ⟨_, _, rfl, rfl, s3⟩
    | 4, _ => exact ⟨_, _, rfl, rfl, s4⟩
    | 5, _ => exact ⟨_, _, rfl, rfl, s5⟩

/-! ## Reading the file -/

omit [LinearOrder F] in
theorem readShare_spec (ops : FloatOps F) (cv : Conv F F) (hcv : ∀ x, cv.ofF x = x) (cvt : Conv F (BitVec 64))
    (hT : ∀ v, cvt.toT v = v) (zero : F) (P ns nt : Nat) (d : Disk) (hP : 0 < P)
    (h : 3600 + nt * (240 + 4 * ns) < 2 ^ 63) (hd : 0 < nt → 3600 + nt * (240 + 4 * ns) ≤ d.size) (r : Nat) (hr : r < P) :
    ∃ p, readShare ops cvt zero P ns nt d r = .ok (off nt P r, sz nt P r, p) ∧
      Held cv (coord ops d ns) (off nt P r, sz nt P r, p) := by
  have hn := nt_lt (ns := ns) h
  have hle := off_le nt P (r + 1) hP hr
  rw [off_succ] at hle
  have hc := clamp_eq (nt := nt) (offset := off nt P r) (sz := sz nt P r) (by omega) (by omega) (by omega)
  rw [show min (sz nt P r) (nt - off nt P r) = sz nt P r by omega] at hc
  have hsm := clamp_small (ns := ns) (offset := off nt P r) (sz := sz nt P r) h (by omega) (by omega)
  rw [hc] at hsm
  have htr : ∀ i, i < sz nt P r → (Where.start (off nt P r)).trace i = off nt P r + i := by
    intro i hi
    show add64 _ i = _
    rw [add64_eq (by omega)]
  obtain ⟨t', p', e1, -, -, -, e5⟩ := read_spec ops cvt hT ns (.start (off nt P r)) (sz nt P r) none
    (some (mk zero dr (sz nt P r))) 0 d nt hsm (fun i j hij hj => by rw [htr i (by omega), htr j hj]; omega)
    (fun i hi => by
      rw [htr i hi]
      have := hd (by omega)
      have hta := taddr_le (ns := ns) (show off nt P r + i < nt by omega)
      unfold taddr at hta ⊢
      omega) (by simp) (fun q hq => by cases hq; exact ⟨dr_ok zero _, Nat.le_refl _⟩) (by simp)
  obtain ⟨q, rfl, g⟩ := e5 _ rfl
  refine ⟨q, ?_, g.wf, g.size, g.rule, ?_⟩
  · unfold readShare
    rw [blockDecomposition_eq hP hr (by omega), Res.ok_bind, ctor_default, Res.ok_bind]
    unfold readTrace
    simp only [hc, e1, Res.ok_bind]
  · intro i hi k hk
    have := (shows_of_read g rfl (Nat.le_refl _) hi).1 k hk F cv
    rw [hcv, htr i hi] at this
    exact this

omit [LinearOrder F] in
theorem readShares_spec (ops : FloatOps F) (cv : Conv F F) (hcv : ∀ x, cv.ofF x = x) (cvt : Conv F (BitVec 64))
    (hT : ∀ v, cvt.toT v = v) (zero : F) (P ns nt : Nat) (d : Disk) (hP : 0 < P)
    (h : 3600 + nt * (240 + 4 * ns) < 2 ^ 63) (hd : 0 < nt → 3600 + nt * (240 + 4 * ns) ≤ d.size) (l : List Nat)
    (hl : ∀ r ∈ l, r < P) :
    ∃ ps, readShares ops cvt zero P ns nt d l = .ok ps ∧ (∀ s ∈ ps, Held cv (coord ops d ns) s) ∧
      ps.map (fun s => (s.1, s.2.1)) = l.map fun r => (off nt P r, sz nt P r) := by
  induction l with
  | nil => exact ⟨[], rfl, by simp, rfl⟩
  | cons r l ih =>
    obtain ⟨p, e1, e2⟩ := readShare_spec ops cv hcv cvt hT zero P ns nt d hP h hd r (hl r (by simp))
    obtain ⟨ps, f1, f2, f3⟩ := ih fun x hx => hl x (by simp [hx])
    refine ⟨(off nt P r, sz nt P r, p) :: ps, ?_, ?_, ?_⟩
    · unfold readShares
      rw [e1, Res.ok_bind, f1, Res.ok_bind]
    · intro s hs
      rcases List.mem_cons.1 hs with rfl | hs
      · exact e2
      · exact f2 s hs
    · rw [List.map_cons, List.map_cons, f3]

/-! ## The rows -/

omit [LinearOrder F] in
theorem setTn_spec (cvt : Conv F (BitVec 64)) (p : Param F) (hp : WF p) (hr : p.rule = dr) (i : Nat) (hi : i < p.sz)
    (v : BitVec 64) : ∃ p', setPrm cvt i tn v p = .ok p' ∧ WF p' ∧ p'.rule = dr ∧ p'.sz = p.sz ∧
      (∀ (T : Type) (cv : Conv F T), getPrm cv i tn p' = .ok (cv.ofI (cvt.toI v))) ∧
      ∀ (T : Type) (cv : Conv F T) i' m', i' < p.sz → Rules.abs dr m' ≠ none → ¬ (i' = i ∧ m' = tn) →
        getPrm cv i' m' p' = getPrm cv i' m' p := by
  obtain ⟨e, h1, h2, -⟩ := dr_long 5 5 (by simp)
  have hm := abs_mem dr_reach.inv h1
  obtain ⟨p', a1, a2, a3, a4, -, a6⟩ := C11_set_get cvt p hp i tn v _ hi (by rw [hr]; exact hm)
  refine ⟨p', a1, a2, a3.trans hr, a4, ?_, by rw [hr] at a6; exact fun T cv => a6 T cv⟩
  intro T cv
  have hlt := num_lt hp.inv (show (tn, some e) ∈ p.rule.map by rw [hr]; exact h1)
  rw [h2] at hlt
  have hset : setPrm cvt i tn v p = .ok { p with i := ⟨p.i.len, fun j => (
      if j = p.rule.cnt .long * i + e.num then cvt.toI v else p.i.val j)⟩ } := by
    unfold setPrm
    rw [show (getEntry p.rule tn).2 = some e from getEntry_of_mem hp.inv (by rw [hr]; exact h1)]
    simp only [h2]
    rw [Arr.set_ok (by rw [hp.i]; exact idx_lt hlt hi)]
    rfl
  rw [hset] at a1
  cases a1
  rw [getPrm_item cv _ a2 (show (tn, some e) ∈ p.rule.map by rw [hr]; exact h1) (show i < p.sz from hi)]
  unfold item
  simp only [h2, ofItem, if_true]

omit [LinearOrder F] in
/-- The loop over the rows. -/
theorem fill_spec (ops : FloatOps F) (cvt : Conv F (BitVec 64)) (tprm : Param F) (ht : WF tprm) (hr : tprm.rule = dr)
    (uniq : List Nat) (hu : tprm.sz = uniq.length) (ks : List Nat) : ∀ (o : Param F) (i : Nat), WF o → o.rule = dr →
    i + ks.length ≤ o.sz → (∀ k ∈ ks, k ∈ uniq) →
    ∃ o', fill ops cvt tprm uniq o i ks = .ok o' ∧ WF o' ∧ o'.rule = dr ∧ o'.sz = o.sz ∧
      (∀ (T : Type) (cv : Conv F T) row m, row < o.sz → Rules.abs dr m ≠ none → row < i →
        getPrm cv row m o' = getPrm cv row m o) ∧
      ∀ a k, ks[a]? = some k → ∃ j, uniq[j]? = some k ∧
        (∀ (T : Type) (cv : Conv F T), getPrm cv (i + a) tn o' = .ok (cv.ofI (cvt.toI (BitVec.ofNat 64 k)))) ∧
        ∀ (T : Type) (cv : Conv F T) m, Rules.abs dr m ≠ none → m ≠ tn → getPrm cv (i + a) m o' = getPrm cv j m tprm := by
  induction ks with
  | nil =>
    intro o i ho hor _ _
    exact ⟨o, rfl, ho, hor, rfl, fun _ _ _ _ _ _ _ => rfl, by simp⟩
  | cons k ks ih =>
    intro o i ho hor hi hk
    rw [List.length_cons] at hi
    have hmem := hk k (by simp)
    obtain ⟨j, hj⟩ : ∃ j, uniq.findIdx? (· == k) = some j := by
      cases hf : uniq.findIdx? (· == k) with
      | none =>
        rw [List.findIdx?_eq_none_iff] at hf
        have := hf k hmem
        simp at this
      | some j => exact ⟨j, rfl⟩
    have hjk : uniq[j]? = some k := by
      obtain ⟨h1, h2, -⟩ := List.findIdx?_eq_some_iff_getElem.1 hj
      rw [List.getElem?_eq_getElem h1]
      simpa using h2
    have hjl := (List.getElem?_eq_some_iff.1 hjk).1
    obtain ⟨o1, c1, c2, c3, c4, c5, c6, -⟩ := C16_copy_partial ops tprm o ht ho j i (by omega) (by omega) false
      (by simp) (fun h => absurd (by rw [hr]; exact dr_copy) h)
    obtain ⟨o2, s1, s2, s3, s4, s5, s6⟩ := setTn_spec cvt o1 c2 (c3.trans hor) i (by omega) (BitVec.ofNat 64 k)
    obtain ⟨o3, f1, f2, f3, f4, f5, f6⟩ := ih o2 (i + 1) s2 s3 (by omega) fun x hx => hk x (by simp [hx])
    refine ⟨o3, ?_, f2, f3, by omega, ?_, ?_⟩
    · unfold fill
      simp only [hj, c1, Res.ok_bind, s1, f1]
    · intro T cv row m hrow hm hlt
      rw [f5 T cv row m (by omega) hm (by omega), s6 T cv row m (by omega) hm (by omega),
        c6 m row (by rw [hor]; exact hm) hrow (by omega) T cv]
    · intro a k' ha
      match a, ha with
      | 0, ha =>
        simp only [List.getElem?_cons_zero, Option.some.injEq] at ha
        subst ha
        have htn : Rules.abs dr tn ≠ none := by
          obtain ⟨e, h1, -⟩ := dr_long 5 5 (by simp)
          rw [show tn = 5 from rfl, abs_mem dr_reach.inv h1]; simp
        refine ⟨j, hjk, ?_, ?_⟩
        · intro T cv
          rw [f5 T cv _ tn (by omega) htn (by omega), Nat.add_zero, s5]
        · intro T cv m hm hne
          obtain ⟨v, hv⟩ := Option.ne_none_iff_exists'.1 hm
          rw [f5 T cv _ m (by omega) hm (by omega), Nat.add_zero, s6 T cv i m (by omega) hm (fun h => hne h.2),
            (c5 m v v (by rw [hr]; exact hv) (by rw [hor]; exact hv) rfl).1 T cv]
      | a + 1, ha =>
        rw [List.getElem?_cons_succ] at ha
        have := f6 a k' ha
        rwa [show i + 1 + a = i + (a + 1) by omega] at this

theorem mem_nodups : ∀ (v : List Nat) (x : Nat), x ∈ v → x ∈ nodups v := by
  intro v x hx
  obtain ⟨j, hj⟩ := List.mem_iff_getElem?.1 hx
  obtain ⟨y, -, -, h⟩ := places_spec v 0 j (List.getElem?_eq_some_iff.1 hj).1
  rw [hj] at h
  exact List.mem_of_getElem? h

omit [LinearOrder F] in
/-- The rows written by the first process, for any numbers of existing traces. -/
theorem rows_spec (ops : FloatOps F) (cvt : Conv F (BitVec 64)) (hT : ∀ v, cvt.toT v = v) (zero : F) (ns nt : Nat)
    (d : Disk) (h : 3600 + nt * (240 + 4 * ns) < 2 ^ 63) (hd : 3600 + nt * (240 + 4 * ns) ≤ d.size) (nums : List Nat)
    (hnum : ∀ t ∈ nums, t < nt) :
    ∃ o, rows ops cvt zero ns d nums = .ok o ∧ WF o ∧ o.rule = dr ∧ o.sz = nums.length ∧
      ∀ i t, nums[i]? = some t → Shows ops d ns t o i ∧
        ∀ (T : Type) (cv : Conv F T), getPrm cv i tn o = .ok (cv.ofI (cvt.toI (BitVec.ofNat 64 t))) := by
  have hsub : ∀ x ∈ distinct nums, x < nt := by
    intro x hx
    have := nodups_sub _ x hx
    rw [List.mem_insertionSort] at this
    exact hnum x this
  have hinc : (distinct nums).Pairwise (· < ·) := nodups_inc _ (List.pairwise_insertionSort _ _)
  have hlen := inc_len (distinct nums) 0 nt hinc (fun x hx => ⟨Nat.zero_le _, hsub x hx⟩) (Nat.zero_le _)
  rw [Nat.add_zero] at hlen
  have hget : ∀ i (hi : i < (distinct nums).length), (Where.list (distinct nums)).trace i = (distinct nums)[i] := by
    intro i hi
    show (distinct nums)[i]?.getD 0 = _
    rw [List.getElem?_eq_getElem hi]; rfl
  obtain ⟨t', p', e1, -, -, -, e5⟩ := read_spec ops cvt hT ns (.list (distinct nums)) (distinct nums).length none
    (some (mk zero dr (distinct nums).length)) 0 d nt
    ⟨h, fun i hi => by rw [hget i hi]; exact hsub _ (List.getElem_mem hi), by simp, fun l hl => by cases hl; rfl, hlen⟩
    (fun i j hij hj => by
      rw [hget i (by omega), hget j hj]
      exact Nat.le_of_lt ((List.pairwise_iff_getElem.mp hinc) i j _ hj hij))
    (fun i hi => by
      rw [hget i hi]
      have := taddr_le (ns := ns) (hsub _ (List.getElem_mem hi))
      unfold taddr at this ⊢
      omega) (by simp) (fun q hq => by cases hq; exact ⟨dr_ok zero _, Nat.le_refl _⟩) (by simp)
  obtain ⟨q, rfl, g⟩ := e5 _ rfl
  obtain ⟨o, f1, f2, f3, f4, -, f6⟩ := fill_spec ops cvt q g.wf g.rule (distinct nums) g.size nums
    (mk zero dr nums.length) 0 (dr_ok zero _).wf rfl (by show 0 + nums.length ≤ nums.length; omega) (fun k hk =>
      mem_nodups _ k (by rw [List.mem_insertionSort]; exact hk))
  refine ⟨o, ?_, f2, f3, f4, ?_⟩
  · unfold rows
    rw [ctor_default, Res.ok_bind]
    unfold readList
    simp only [e1, Res.ok_bind, f1]
  · intro i t hi
    obtain ⟨j, hj, k1, k2⟩ := f6 i t hi
    rw [Nat.zero_add] at k1 k2
    refine ⟨?_, k1⟩
    obtain ⟨hjl, hjt⟩ := List.getElem?_eq_some_iff.1 hj
    obtain ⟨s1, s2, s3⟩ := shows_of_read g rfl (Nat.le_refl _) hjl
    rw [hget j hjl, hjt] at s1 s2 s3
    refine ⟨?_, ?_, ?_⟩
    · intro k hk T cv
      rw [k2 T cv _ (dr_abs hk) (by show 20 + k ≠ 5; omega)]
      exact s1 k hk T cv
    · intro m loc hm T cv
      obtain ⟨e, h1, -⟩ := dr_long m loc (by simp only [List.mem_cons] at hm ⊢; tauto)
      rw [k2 T cv m (by rw [abs_mem dr_reach.inv h1]; simp) (by
        simp only [List.mem_cons, Prod.mk.injEq, List.not_mem_nil, or_false] at hm
        unfold tn; omega)]
      exact s2 m loc hm T cv
    · intro T cv
      obtain ⟨e, h1, -⟩ := dr_ltn
      rw [k2 T cv ltn (by rw [abs_mem dr_reach.inv h1]; simp) (by decide)]
      exact s3 T cv

theorem calcMin_spec (ops : FloatOps F) (cv : Conv F F) (hcv : ∀ x, cv.ofF x = x) (cvt : Conv F (BitVec 64))
    (hT : ∀ v, cvt.toT v = v) (hI : ∀ v, cvt.toI v = v) (zero : F) (P ns nt : Nat) (d : Disk) (hP : 0 < P) (hnt : 0 < nt)
    (h : 3600 + nt * (240 + 4 * ns) < 2 ^ 63) (hd : 3600 + nt * (240 + 4 * ns) ≤ d.size) :
    ∃ (nums : List Nat) (o : Param F), calcMin ops cv cvt zero P ns nt d = .ok o ∧ nums.length = 12 ∧
      WF o ∧ o.rule = dr ∧ o.sz = 12 ∧
      (∀ k, k < 6 → ∃ lo hi, nums[2 * k]? = some lo ∧ nums[2 * k + 1]? = some hi ∧ lo < nt ∧ hi < nt ∧
        ∀ t, t < nt → coord ops d ns lo k ≤ coord ops d ns t k ∧ coord ops d ns t k ≤ coord ops d ns hi k) ∧
      ∀ i t, nums[i]? = some t → Shows ops d ns t o i ∧
        ∀ (T : Type) (cv : Conv F T), getPrm cv i 5 o = .ok (cv.ofI (BitVec.ofNat 64 t)) := by
  have hn := nt_lt (ns := ns) h
  obtain ⟨ps, e1, e2, e3⟩ := readShares_spec ops cv hcv cvt hT zero P ns nt d hP h (fun _ => hd) (List.range P)
    fun r hr => List.mem_range.1 hr
  have hof : ∀ s ∈ ps, ∃ r, r < P ∧ s.1 = off nt P r ∧ s.2.1 = sz nt P r := by
    intro s hs
    have : (s.1, s.2.1) ∈ ps.map (fun s => (s.1, s.2.1)) := List.mem_map.2 ⟨s, hs, rfl⟩
    rw [e3] at this
    obtain ⟨r, hr, he⟩ := List.mem_map.1 this
    rw [Prod.mk.injEq] at he
    exact ⟨r, List.mem_range.1 hr, he.1.symm, he.2.symm⟩
  have hto : ∀ r, r < P → ∃ s ∈ ps, s.1 = off nt P r ∧ s.2.1 = sz nt P r := by
    intro r hr
    have : (off nt P r, sz nt P r) ∈ (List.range P).map fun r => (off nt P r, sz nt P r) :=
      List.mem_map.2 ⟨r, List.mem_range.2 hr, rfl⟩
    rw [← e3] at this
    obtain ⟨s, hs, he⟩ := List.mem_map.1 this
    rw [Prod.mk.injEq] at he
    exact ⟨s, hs, he⟩
  obtain ⟨nums, f1, f2, f3, f4⟩ := extremes_spec ops cv zero (coord ops d ns) ps e2 nt hnt (by omega) (by
    intro s hs
    obtain ⟨r, hr, h1, h2⟩ := hof s hs
    have := off_le nt P (r + 1) hP hr
    rw [off_succ] at this
    omega) (by
    intro t ht
    obtain ⟨l, -, h2, h3, h4⟩ := location_eq hP ht (by omega)
    obtain ⟨s, hs, g1, g2⟩ := hto l.rank h2
    exact ⟨s, hs, by omega, by omega⟩)
  obtain ⟨o, g1, g2, g3, g4, g5⟩ := rows_spec ops cvt hT zero ns nt d h hd nums f3
  refine ⟨nums, o, ?_, f2, g2, g3, by rw [g4, f2], f4, ?_⟩
  · unfold calcMin
    rw [e1, Res.ok_bind, f1, Res.ok_bind, g1]
  · intro i t hi
    obtain ⟨k1, k2⟩ := g5 i t hi
    refine ⟨k1, fun T cv => ?_⟩
    have := k2 T cv
    rw [hI] at this
    exact this

/-- **C77** (part): on any number of processes, for any file with at least one trace, the parameters of the twelve rows
are those of traces with the smallest and the largest source x, source y, receiver x, receiver y, midpoint x and midpoint
y of the whole file, in this order, and the item `tn` of each row holds the number of its trace. -/
theorem C77_extremes_partial (ops : FloatOps F) (cv : Conv F F) (hcv : ∀ x, cv.ofF x = x) (cvt : Conv F (BitVec 64))
    (hT : ∀ v, cvt.toT v = v) (hI : ∀ v, cvt.toI v = v) (zero : F) (P ns nt : Nat) (d : Disk) (hP : 0 < P) (hnt : 0 < nt)
    (h : 3600 + nt * (240 + 4 * ns) < 2 ^ 63) (hd : 3600 + nt * (240 + 4 * ns) ≤ d.size) :
    ∃ (nums : List Nat) (o : Param F), calcMin ops cv cvt zero P ns nt d = .ok o ∧ nums.length = 12 ∧ o.sz = 12 ∧
      (∀ k, k < 6 → ∃ lo hi, nums[2 * k]? = some lo ∧ nums[2 * k + 1]? = some hi ∧ lo < nt ∧ hi < nt ∧
        ∀ t, t < nt → coord ops d ns lo k ≤ coord ops d ns t k ∧ coord ops d ns t k ≤ coord ops d ns hi k) ∧
      ∀ i t, nums[i]? = some t → Shows ops d ns t o i ∧
        ∀ (T : Type) (cv : Conv F T), getPrm cv i 5 o = .ok (cv.ofI (BitVec.ofNat 64 t)) := by
  obtain ⟨nums, o, e1, e2, -, -, e5, e6, e7⟩ := calcMin_spec ops cv hcv cvt hT hI zero P ns nt d hP hnt h hd
  exact ⟨nums, o, e1, e2, e5, e6, e7⟩

/-! ## The file written -/

theorem dr_slots : ∀ n, n < dr.cnt .float → ∃ k, k < 6 ∧ ∃ e, (20 + k, some e) ∈ dr.map ∧ e.kind = .float ∧ e.num = n := by
  have h : ∀ n ∈ List.range (dr.cnt .float), ∃ k ∈ List.range 6, ∃ q ∈ dr.map, q.1 = 20 + k ∧ ∃ e, q.2 = some e ∧
      e.kind = .float ∧ e.num = n := by unfold dr; decide +kernel
  intro n hn
  obtain ⟨k, hk, q, h1, h2, e, h3, h4⟩ := h n (List.mem_range.2 hn)
  exact ⟨k, List.mem_range.1 hk, e, by rw [← h2, ← h3]; exact h1, h4⟩

omit [LinearOrder F] in
/-- What a row stores for an item that is a floating point number. -/
theorem stored_value {p : Param F} {row m : Nat} {e : Entry} {v : F} (hp : WF p)
    (hr : p.rule = dr) (hrow : row < p.sz) (h : ∀ (T : Type) (cv : Conv F T), getPrm cv row m p = .ok (cv.ofF v))
    (he : (m, some e) ∈ dr.map) (hf : e.kind = .float) : p.f.val (p.rule.cnt .float * row + e.num) = v := by
  have h := h F ⟨id, fun _ => 0, fun _ => 0, fun _ => 0, id, fun _ => v, fun _ => v, fun _ => v, v⟩
  rw [getPrm_item _ p hp (by rw [hr]; exact he) hrow] at h
  unfold item at h
  simp only [hf, ofItem] at h
  exact Res.ok.inj h

omit [LinearOrder F] in
/-- What a row stores for a coordinate. -/
theorem stored_float {ops : FloatOps F} {d : Disk} {ns t : Nat} {p : Param F} {row k : Nat} {e : Entry} (hp : WF p)
    (hr : p.rule = dr) (hrow : row < p.sz) (hs : Shows ops d ns t p row) (hk : k < 6) (he : (20 + k, some e) ∈ dr.map)
    (hf : e.kind = .float) : p.f.val (p.rule.cnt .float * row + e.num) = coord ops d ns t k :=
  stored_value hp hr hrow (hs.1 k hk) he hf

omit [LinearOrder F] in
/-- What a row stores for a number. -/
theorem stored_long {p : Param F} {row m : Nat} {e : Entry} {v : BitVec 64} (hp : WF p)
    (hr : p.rule = dr) (hrow : row < p.sz) (he : (m, some e) ∈ dr.map) (hf : e.kind = .long)
    (h : ∀ (T : Type) (cv : Conv F T), getPrm cv row m p = .ok (cv.ofI v)) :
    p.i.val (p.rule.cnt .long * row + e.num) = v := by
  have h := h (Option (BitVec 64) × (F → F)) ⟨fun x => x.2 (p.f.val 0), fun _ => 0, fun _ => 0, fun _ => 0,
    fun _ => (none, id), fun x => (some x, id), fun _ => (none, id), fun _ => (none, id), (none, id)⟩
  rw [getPrm_item _ p hp (by rw [hr]; exact he) hrow] at h
  unfold item at h
  simp only [hf, ofItem] at h
  have := Res.ok.inj h
  rw [Prod.mk.injEq] at this
  exact Option.some.inj this.1

theorem steps_eq (inc : ℚ) (hnorm : 2 ^ (-1022 : ℤ) ≤ |inc|) (r : Nat) :
    runW1 r [.ns 1, .inc inc, .write fun r => (0, rowsOn r)] =
      (((W.new.writeNt (rowsOn r)).writeNs 1).writeInc inc).writeTrace 0 (rowsOn r) ∧
    (runW1 r [.ns 1, .inc inc, .write fun r => (0, rowsOn r)]).err = false := by
  have hi0 : (0 : ℚ) ≠ inc := by
    rintro rfl
    rw [abs_zero] at hnorm
    exact absurd hnorm (not_le.2 (zpow_pos (by norm_num) _))
  have hw : ∀ w : W, w.inc = 0 → w.writeInc inc = { w with inc := inc, writeHO := true } := by
    intro w hw
    unfold W.writeInc
    rw [if_neg (not_lt.2 hnorm), if_pos (by rw [hw]; exact hi0)]
  have e1 : runW1 r [.ns 1, .inc inc, .write fun r => (0, rowsOn r)] =
      ((W.new.writeNs 1).writeInc inc).writeTrace 0 (rowsOn r) := rfl
  rw [e1]
  by_cases hr : r = 0
  · rw [show rowsOn r = 12 by simp [rowsOn, hr], hw _ rfl, hw _ rfl]
    exact ⟨rfl, rfl⟩
  · rw [show rowsOn r = 0 by simp [rowsOn, hr], hw _ rfl, hw _ rfl]
    exact ⟨rfl, rfl⟩

omit [LinearOrder F] in
/-- Parameters of the default rule whose coordinates can be written. -/
theorem prmOk_rows (ops : FloatOps F) (o : Param F) (hp : WF o) (hr : o.rule = dr)
    (hall : ∀ row, row < o.sz → ∀ k, k < 6 → ∃ v, (∀ (T : Type) (cv : Conv F T), getPrm cv row (20 + k) o = .ok (cv.ofF v)) ∧
      (∃ s, ops.findScalar v = .ok s) ∧ ∀ s, ∃ n, ops.encode v s = .ok n) : PrmOk ops o := by
  have hval : ∀ x, x < o.f.len → (∃ s, ops.findScalar (o.f.val x) = .ok s) ∧ ∀ s, ∃ n, ops.encode (o.f.val x) s = .ok n := by
    intro x hx
    rw [hp.f, hr] at hx
    have hpos : 0 < dr.cnt .float := by
      rcases Nat.eq_zero_or_pos (dr.cnt .float) with hz | hz
      · rw [hz] at hx; omega
      · exact hz
    obtain ⟨k, hk, e, he, hf, hn⟩ := dr_slots (x % dr.cnt .float) (Nat.mod_lt _ hpos)
    have hrow : x / dr.cnt .float < o.sz := (Nat.div_lt_iff_lt_mul hpos).2 hx
    obtain ⟨v, h1, h2⟩ := hall _ hrow k hk
    have := stored_value hp hr hrow h1 he hf
    rw [hn, hr, Nat.div_add_mod] at this
    rw [this]
    exact h2
  exact ⟨hp, by rw [hr]; exact C12_known_layout dr dr_reach.inv dr_known, by rw [hr]; exact dr_full,
    by rw [hr]; exact dr_start, fun x hx => (hval x hx).1, fun x hx => (hval x hx).2⟩

omit [LinearOrder F] in
/-- The rows on disk, before the file is closed. -/
theorem rows_written (ops : FloatOps F) (o : Param F) (hprm : PrmOk ops o) (h12 : o.sz = 12) (out : Disk) :
    ∃ d1, writeTraceT ops 1 (.start 0) 12 (some ones) (some o) 0 out = .ok (d1, some ones) ∧
      (∀ i, i < 12 → be32 d1 1 i 241 = 0x3f800000#32) ∧
      (∀ i, i < 12 → Header (fsOf ops) (enOf ops) o i (dhdr d1 1 i)) ∧
      ∀ x, x < 3600 → d1.byte x = out.byte x := by
  have htr : ∀ i, i < 12 → (Where.start 0).trace i = i := by
    intro i hi
    show add64 0 i = i
    rw [add64_eq (by omega)]; omega
  obtain ⟨d1, w1, w2, w3, w4, -, -, -⟩ := write_spec ops 1 (.start 0) 12 (some ones) (some o) 0 out 12
    ⟨by unfold taddr; norm_num, fun i hi => by rw [htr i hi]; exact hi, fun o ho _ => by cases ho; omega, by simp,
      Nat.le_refl _⟩ (fun i j hij hj => by rw [htr i (by omega), htr j hj]; exact hij)
    (fun t ht => by cases ht; exact ⟨by show 4 * (1 * 12) ≤ 48; omega, by show 48 ≤ 2 ^ 63; norm_num⟩)
    (fun p hp => by cases hp; exact ⟨hprm, by rw [h12]⟩) (by simp)
  refine ⟨d1, w1, ?_, ?_, ?_⟩
  · intro i hi
    have := w2 ones rfl i 0 hi (by omega)
    rw [htr i hi] at this
    have hones : sample ones (i * 1 + 0) = 0x3f800000#32 := by
      have : ∀ i ∈ List.range 12, sample ones (i * 1 + 0) = 0x3f800000#32 := by decide +kernel
      exact this i (List.mem_range.2 hi)
    rw [hones] at this
    exact this
  · intro i hi
    have hhdr := w3 o rfl i hi
    rw [Nat.add_zero, htr i hi] at hhdr
    exact hhdr
  · intro x hx
    refine w4 x fun i hi => ?_
    unfold taddr
    exact ⟨fun _ => by omega, fun _ => by omega⟩

omit [LinearOrder F] in
/-- The numbers in the header of a row. -/
theorem row_numbers {ops : FloatOps F} {d : Disk} {ns t i : Nat} {o : Param F} {hd : Arr Byte} (e3 : WF o) (e4 : o.rule = dr)
    (e5 : o.sz = 12) (hi12 : i < 12) (s1 : Shows ops d ns t o i)
    (s2 : ∀ (T : Type) (cv : Conv F T), getPrm cv i 5 o = .ok (cv.ofI (BitVec.ofNat 64 t)))
    (hhdr : Header (fsOf ops) (enOf ops) o i hd) :
    val32 hd (0 + (5 - 1)) = BitVec.ofNat 32 t ∧ ∀ loc ∈ [37, 189, 193], val32 hd (0 + (loc - 1)) = be32 d ns t loc := by
  refine ⟨?_, ?_⟩
  · obtain ⟨e, k1, k2, k3⟩ := dr_long 5 5 (by simp)
    have := (hhdr.items 5 e (by rw [e4]; exact k1)).2.1 k2
    rw [Nat.mul_comm, stored_long e3 e4 (by rw [e5]; exact hi12) k1 k2 s2, k3] at this
    rw [this]
    rw [BitVec.setWidth_ofNat_of_le (by norm_num)]
  · intro loc hloc
    have hm : ∃ m, (m, loc) ∈ [(14, 37), (26, 189), (27, 193)] := by
      simp only [List.mem_cons, List.not_mem_nil, or_false] at hloc
      rcases hloc with rfl | rfl | rfl
      · exact ⟨14, by simp⟩
      · exact ⟨26, by simp⟩
      · exact ⟨27, by simp⟩
    obtain ⟨m, hm⟩ := hm
    obtain ⟨e, k1, k2, k3⟩ := dr_long m loc (by simp only [List.mem_cons] at hm ⊢; tauto)
    have := (hhdr.items m e (by rw [e4]; exact k1)).2.1 k2
    rw [Nat.mul_comm, stored_long e3 e4 (by rw [e5]; exact hi12) k1 k2 (s1.2.1 m loc hm), k3] at this
    rw [this]
    ext j hj
    rw [BitVec.getElem_setWidth, BitVec.getLsbD_signExtend]
    simp [hj, show j < 64 by omega]

omit [LinearOrder F] in
/-- The file after it is closed. -/
theorem rows_closed (ops : FloatOps F) (P : Nat) (hP : 0 < P) (inc : ℚ) (m : ℤ) (h0 : 0 ≤ m) (h1 : m ≤ 32767)
    (hinc : |inc * 10 ^ 6 - m| ≤ 1 / 4) (hnorm : 2 ^ (-1022 : ℤ) ≤ |inc|) (o : Param F) (out : Disk) {d1 : Disk}
    (w1 : writeTraceT ops 1 (.start 0) 12 (some ones) (some o) 0 out = .ok (d1, some ones)) :
    ∃ d', writeRows ops P inc o out = .ok d' ∧ (∀ x, 3600 ≤ x → d'.byte x = d1.byte x) ∧
      ∃ text, openRead d' = .ok ⟨1, 12, FP.rnd (micro * m), 5#16, text⟩ := by
  have hstep := fun r => (steps_eq inc hnorm r).1
  obtain ⟨d', c1, c2, c3, c4⟩ := C21_close_partial P hP [.ns 1, .inc inc, .write fun r => (0, rowsOn r)] d1 1 12 m (by
      intro r _
      exact (steps_eq inc hnorm r).2) rfl (by decide) (Or.inr ⟨rfl, by
        intro r _
        refine ⟨?_, ?_, ?_⟩
        · intro f hf
          simp at hf; subst hf
          unfold rowsOn; simp; split <;> omega
        · intro f hf; simp at hf
        · intro f hf; simp at hf, Or.inr ⟨0, hP, Or.inl ⟨fun r => (0, rowsOn r), by simp, by simp, by
          simp [rowsOn]⟩⟩⟩) (by unfold plainSz; norm_num) h0 h1 hinc (fun x hx => absurd hx (List.not_mem_nil (a := x)))
  refine ⟨d', ?_, c3, _, c4⟩
  unfold writeRows
  rw [w1, Res.ok_bind]
  simp only
  rw [← c1]
  congr 1
  unfold runAllW
  exact List.map_congr_left fun r _ => (hstep r).symm

omit [LinearOrder F] in
/-- With an increment that is zero (or nearly) the file is not closed properly: nothing is done to it. -/
theorem rows_left (ops : FloatOps F) (P : Nat) (hP : 0 < P) (inc : ℚ) (hz : |inc| < 2 ^ (-1022 : ℤ)) (o : Param F) (out : Disk)
    {d1 : Disk} (w1 : writeTraceT ops 1 (.start 0) 12 (some ones) (some o) 0 out = .ok (d1, some ones)) :
    writeRows ops P inc o out = .ok d1 := by
  unfold writeRows
  rw [w1, Res.ok_bind]
  simp only
  have e : ((List.range P).map fun r => (((W.new.writeNt (rowsOn r)).writeNs 1).writeInc inc).writeTrace 0 (rowsOn r)).map W.err =
      List.replicate P true := by
    rw [List.map_map, List.eq_replicate_iff]
    refine ⟨by simp, ?_⟩
    intro b hb
    obtain ⟨r, -, rfl⟩ := List.mem_map.1 hb
    show ((((W.new.writeNt (rowsOn r)).writeNs 1).writeInc inc).err || _) = true
    unfold W.writeInc
    rw [if_pos hz]
    rfl
  unfold close
  rw [e]
  obtain ⟨n, rfl⟩ : ∃ n, P = n + 1 := ⟨P - 1, by omega⟩
  have ha : agree (List.replicate (n + 1) true) = .ok true := by
    rw [List.replicate_succ]
    unfold agree
    simp only
    rw [if_pos (by simp)]
  rw [ha, Res.ok_bind, if_pos rfl]

/-- The file written by the tool, with the parameters and how they are held. -/
theorem file_spec (ops : FloatOps F) (cv : Conv F F) (hcv : ∀ x, cv.ofF x = x) (cvt : Conv F (BitVec 64))
    (hT : ∀ v, cvt.toT v = v) (hI : ∀ v, cvt.toI v = v) (zero : F) (P ns nt : Nat) (d out : Disk) (hP : 0 < P)
    (hnt : 0 < nt) (h : 3600 + nt * (240 + 4 * ns) < 2 ^ 63) (hd : 3600 + nt * (240 + 4 * ns) ≤ d.size)
    (hops : ∀ t, t < nt → ∀ k, k < 6 → (∃ s, ops.findScalar (coord ops d ns t k) = .ok s) ∧
      ∀ s, ∃ n, ops.encode (coord ops d ns t k) s = .ok n)
    (inc : ℚ) (m : ℤ) (h0 : 0 ≤ m) (h1 : m ≤ 32767) (hinc : |inc * 10 ^ 6 - m| ≤ 1 / 4)
    (hnorm : 2 ^ (-1022 : ℤ) ≤ |inc|) :
    ∃ (nums : List Nat) (o : Param F) (d' : Disk), calcMin ops cv cvt zero P ns nt d = .ok o ∧
      writeRows ops P inc o out = .ok d' ∧ nums.length = 12 ∧
      (∃ text, openRead d' = .ok ⟨1, 12, FP.rnd (micro * m), 5#16, text⟩) ∧
      (∀ k, k < 6 → ∃ lo hi, nums[2 * k]? = some lo ∧ nums[2 * k + 1]? = some hi ∧ lo < nt ∧ hi < nt ∧
        ∀ t, t < nt → coord ops d ns lo k ≤ coord ops d ns t k ∧ coord ops d ns t k ≤ coord ops d ns hi k) ∧
      WF o ∧ o.rule = dr ∧ o.sz = 12 ∧
      (∀ i t, nums[i]? = some t → t < nt ∧ Shows ops d ns t o i ∧
        ∀ (T : Type) (cv : Conv F T), getPrm cv i 5 o = .ok (cv.ofI (BitVec.ofNat 64 t))) ∧
      ∀ i, i < 12 → be32 d' 1 i 241 = 0x3f800000#32 ∧ ∃ h, Header (fsOf ops) (enOf ops) o i h ∧
        (∀ loc, be16 d' 1 i loc = val16 h (0 + (loc - 1))) ∧ ∀ loc, be32 d' 1 i loc = val32 h (0 + (loc - 1)) := by
  obtain ⟨nums, o, e1, e2, e3, e4, e5, e6, e7⟩ := calcMin_spec ops cv hcv cvt hT hI zero P ns nt d hP hnt h hd
  have hlt : ∀ i t, nums[i]? = some t → i < 12 := by
    intro i t hi
    have := (List.getElem?_eq_some_iff.1 hi).1
    omega
  have hall : ∀ i, i < 12 → ∃ t, nums[i]? = some t ∧ t < nt := by
    intro i hi
    obtain ⟨lo, hi', k1, k2, k3, k4, -⟩ := e6 (i / 2) (by omega)
    rcases Nat.mod_two_eq_zero_or_one i with hm | hm
    · rw [show 2 * (i / 2) = i by omega] at k1; exact ⟨_, k1, k3⟩
    · rw [show 2 * (i / 2) + 1 = i by omega] at k2; exact ⟨_, k2, k4⟩
  have hnt' : ∀ i t : Nat, nums[i]? = some t → t < nt := by
    intro i t hi
    obtain ⟨t', h1, h2⟩ := hall i (hlt i t hi)
    rw [hi] at h1
    cases h1
    exact h2
  have hprm : PrmOk ops o := prmOk_rows ops o e3 e4 fun row hrow k hk => by
    obtain ⟨t, ht, htn⟩ := hall row (by omega)
    exact ⟨_, (e7 _ t ht).1.1 k hk, hops t htn k hk⟩
  obtain ⟨d1, w1, w2, w3, -⟩ := rows_written ops o hprm e5 out
  obtain ⟨d', c1, c3, c4⟩ := rows_closed ops P hP inc m h0 h1 hinc hnorm o out w1
  refine ⟨nums, o, d', e1, c1, e2, c4, e6, e3, e4, e5, fun i t hi => ⟨hnt' i t hi, e7 i t hi⟩, ?_⟩
  · intro i hi12
    have hb : ∀ x, 3600 ≤ x → d'.byte x = d1.byte x := c3
    have e32 : ∀ loc, be32 d' 1 i loc = be32 d1 1 i loc := by
      intro loc
      unfold be32
      rw [hb _ (by omega), hb _ (by omega), hb _ (by omega), hb _ (by omega)]
    refine ⟨by rw [e32]; exact w2 i hi12, dhdr d1 1 i, w3 i hi12, ?_, ?_⟩
    · intro loc
      unfold be16
      rw [hb _ (by omega), hb _ (by omega), Nat.zero_add]
      rfl
    · intro loc
      rw [e32, Nat.zero_add]
      rfl

/-- **C77** (part): the file written by the tool. It has twelve traces of one sample, the number one, and the increment of
the input (to within a quarter of a microsecond). The header of trace `i` holds the numbers of the `i`-th extreme trace, its
coordinates as encoded with a scalar common to the six, and at position 5 the low 32 bits of its number. -/
theorem C77_file_partial (ops : FloatOps F) (cv : Conv F F) (hcv : ∀ x, cv.ofF x = x) (cvt : Conv F (BitVec 64))
    (hT : ∀ v, cvt.toT v = v) (hI : ∀ v, cvt.toI v = v) (zero : F) (P ns nt : Nat) (d out : Disk) (hP : 0 < P)
    (hnt : 0 < nt) (h : 3600 + nt * (240 + 4 * ns) < 2 ^ 63) (hd : 3600 + nt * (240 + 4 * ns) ≤ d.size)
    (hops : ∀ t, t < nt → ∀ k, k < 6 → (∃ s, ops.findScalar (coord ops d ns t k) = .ok s) ∧
      ∀ s, ∃ n, ops.encode (coord ops d ns t k) s = .ok n)
    (inc : ℚ) (m : ℤ) (h0 : 0 ≤ m) (h1 : m ≤ 32767) (hinc : |inc * 10 ^ 6 - m| ≤ 1 / 4)
    (hnorm : 2 ^ (-1022 : ℤ) ≤ |inc|) :
    ∃ (nums : List Nat) (o : Param F) (d' : Disk), calcMin ops cv cvt zero P ns nt d = .ok o ∧
      writeRows ops P inc o out = .ok d' ∧ nums.length = 12 ∧
      (∃ text, openRead d' = .ok ⟨1, 12, FP.rnd (micro * m), 5#16, text⟩) ∧
      (∀ k, k < 6 → ∃ lo hi, nums[2 * k]? = some lo ∧ nums[2 * k + 1]? = some hi ∧ lo < nt ∧ hi < nt ∧
        ∀ t, t < nt → coord ops d ns lo k ≤ coord ops d ns t k ∧ coord ops d ns t k ≤ coord ops d ns hi k) ∧
      ∀ i t, nums[i]? = some t →
        be32 d' 1 i 241 = 0x3f800000#32 ∧ be32 d' 1 i 5 = BitVec.ofNat 32 t ∧
        (∀ loc ∈ [37, 189, 193], be32 d' 1 i loc = be32 d ns t loc) ∧
        ∀ k, k < 6 → ops.encode (coord ops d ns t k) (be16 d' 1 i 71) = .ok (be32 d' 1 i (place[k]?.getD 0)) := by
  obtain ⟨nums, o, d', e1, f1, e2, f2, e6, e3, e4, e5, e7, w⟩ := file_spec ops cv hcv cvt hT hI zero P ns nt d out hP hnt h hd hops
    inc m h0 h1 hinc hnorm
  refine ⟨nums, o, d', e1, f1, e2, f2, e6, ?_⟩
  intro i t hi
  have hi12 : i < 12 := by have := (List.getElem?_eq_some_iff.1 hi).1; omega
  obtain ⟨w1, hd, hhdr, b16, b32⟩ := w i hi12
  obtain ⟨htn, s1, s2⟩ := e7 i t hi
  refine ⟨w1, ?_, ?_, ?_⟩
  · rw [b32]; exact (row_numbers e3 e4 e5 hi12 s1 s2 hhdr).1
  · intro loc hloc
    rw [b32]; exact (row_numbers e3 e4 e5 hi12 s1 s2 hhdr).2 loc hloc
  · intro k hk
    obtain ⟨e, k1, k2, k3, k4⟩ := dr_float k hk
    have := (hhdr.items (20 + k) e (by rw [e4]; exact k1)).2.2 k2
    rw [k3, k4] at this
    have hv : fval o i e = coord ops d ns t k := by
      unfold fval
      rw [Nat.mul_comm]
      exact stored_float e3 e4 (by rw [e5]; exact hi12) s1 hk k1 k2
    rw [hv] at this
    rw [b16, b32, this.2, this.1]
    obtain ⟨n, hn⟩ := (hops t htn k hk).2 (scalarOf (fsOf ops) o i 71)
    rw [hn]
    unfold enOf
    rw [hn]
    rfl

/-! ## What goes wrong -/

/-- The number of an extreme trace is written to four bytes: from trace `2 ^ 31` on a reader finds another number. -/
theorem C77_number_refuted (ops : FloatOps F) (cv : Conv F F) (hcv : ∀ x, cv.ofF x = x) (cvt : Conv F (BitVec 64))
    (hT : ∀ v, cvt.toT v = v) (hI : ∀ v, cvt.toI v = v) (zero : F) (P ns nt : Nat) (d out : Disk) (hP : 0 < P)
    (h : 3600 + nt * (240 + 4 * ns) < 2 ^ 63) (hd : 3600 + nt * (240 + 4 * ns) ≤ d.size)
    (hops : ∀ t, t < nt → ∀ k, k < 6 → (∃ s, ops.findScalar (coord ops d ns t k) = .ok s) ∧
      ∀ s, ∃ n, ops.encode (coord ops d ns t k) s = .ok n)
    (inc : ℚ) (m : ℤ) (h0 : 0 ≤ m) (h1 : m ≤ 32767) (hinc : |inc * 10 ^ 6 - m| ≤ 1 / 4)
    (hnorm : 2 ^ (-1022 : ℤ) ≤ |inc|) (b : Nat) (hb : 2 ^ 31 ≤ b) (hbn : b < nt)
    (hmin : ∀ t, t < nt → t ≠ b → coord ops d ns b 0 < coord ops d ns t 0) :
    ∃ (o : Param F) (d' : Disk), calcMin ops cv cvt zero P ns nt d = .ok o ∧ writeRows ops P inc o out = .ok d' ∧
      (be32 d' 1 0 5).toInt ≠ b := by
  obtain ⟨nums, o, d', e1, e2, -, -, e5, e6⟩ := C77_file_partial ops cv hcv cvt hT hI zero P ns nt d out hP (by omega) h hd
    hops inc m h0 h1 hinc hnorm
  refine ⟨o, d', e1, e2, ?_⟩
  obtain ⟨lo, hi, k1, -, k3, -, k5⟩ := e5 0 (by omega)
  have hlo : lo = b := by
    by_contra hne
    exact absurd (hmin lo k3 hne) (not_lt.2 (k5 b hbn).1)
  rw [(e6 0 lo k1).2.1]
  have := BitVec.toInt_lt (x := BitVec.ofNat 32 lo)
  norm_num at this
  omega

theorem distinct_same (a : Nat) : distinct (List.replicate 12 a) = [a] := by
  have : (List.replicate 12 a).insertionSort (· ≤ ·) = List.replicate 12 a :=
    List.Pairwise.insertionSort_eq (List.pairwise_replicate_of_refl)
  unfold distinct
  rw [this]
  simp [List.replicate, nodups]

/-- The list of numbers without traces. -/
theorem extremes_none (ops : FloatOps F) (cv : Conv F F) (zero : F) (X : Nat → Nat → F)
    (ps : List (Nat × Nat × Param F)) (hs : ∀ s ∈ ps, Held cv X s) (h0 : ∀ s ∈ ps, s.2.1 = 0) :
    extremes ops cv zero ps = .ok (List.replicate 12 noTrace) := by
  have hm : ∀ a b, a < 6 → b < 6 → metaMinMax ops cv zero (20 + a) (20 + b) ps =
      .ok (List.replicate 4 ⟨zero, noTrace⟩) := by
    intro a b ha hb
    have he : ∀ e1 e2 : F × F → F, getCoordMinMax zero e1 e2 (ps.map fun s => (s.1, (List.range' 0 s.2.1).map fun i =>
        (X (s.1 + i) a, X (s.1 + i) b))) = (⟨zero, noTrace⟩, ⟨zero, noTrace⟩) := by
      intro e1 e2
      refine (C37_empty zero e1 e2 _).2 ?_
      intro q hq
      obtain ⟨s, hs', rfl⟩ := List.mem_map.1 hq
      simp only [h0 s hs']
      rfl
    unfold metaMinMax
    rw [shares_spec ops cv zero ps (fun s h => (hs s h).holding ha hb) (fun _ _ _ => ⟨dr_abs ha, dr_abs hb⟩), Res.ok_bind]
    unfold getMinMax
    simp only [he]
    rfl
  unfold extremes
  rw [hm 0 1 (by omega) (by omega), hm 2 3 (by omega) (by omega), hm 4 5 (by omega) (by omega)]
  rfl

omit [LinearOrder F] in
/-- Position of the trace that does not exist. -/
theorem loc_noTrace {ns : Nat} (hns : ns ≤ 840) : getDOLoc noTrace ns = 3360 - 4 * ns := by
  unfold getDOLoc getFileSz
  rw [getDOSz_eq (by omega)]
  unfold getHOSz add64 mul64 noTrace
  omega

omit [LinearOrder F] in
theorem fetch_any (d : Disk) : ∀ (l : List (Nat × Nat)) (buf : Arr Byte), (∀ m ∈ l, m.1 < buf.len) →
    ∃ b', fetch d buf l = .ok b' ∧ b'.len = buf.len := by
  intro l
  induction l with
  | nil => intro buf _; exact ⟨buf, rfl, rfl⟩
  | cons q l ih =>
    intro buf hb
    obtain ⟨b, f⟩ := q
    have hlt : b < buf.len := hb (b, f) List.mem_cons_self
    unfold fetch
    split
    · unfold Arr.set
      rw [if_pos hlt, Res.ok_bind]
      exact ih _ fun m hm => hb m (List.mem_cons_of_mem _ hm)
    · exact ih buf fun m hm => hb m (List.mem_cons_of_mem _ hm)

/-- A tool without traces: the rows are decoded from 240 bytes, those before the end of the header of the file if it has one. -/
theorem calcMin_none (ops : FloatOps F) (cv : Conv F F) (hcv : ∀ x, cv.ofF x = x) (cvt : Conv F (BitVec 64))
    (hT : ∀ v, cvt.toT v = v) (hI : ∀ v, cvt.toI v = v) (zero : F) (P ns : Nat) (d : Disk) (hP : 0 < P)
    (hns : ns ≤ 840) :
    ∃ (o : Param F) (b : Nat → Byte), calcMin ops cv cvt zero P ns 0 d = .ok o ∧ WF o ∧ o.rule = dr ∧ o.sz = 12 ∧
      (3600 ≤ d.size → ∀ r, r < 240 → b r = d.byte (3360 - 4 * ns + r)) ∧
      ∀ i, i < 12 → ∀ (T : Type) (cv : Conv F T),
      getPrm cv i tn o = .ok (cv.ofI (BitVec.ofNat 64 (2 ^ 64 - 1))) ∧
      ∀ k, k < 6 → getPrm cv i (20 + k) o = .ok (cv.ofF (ops.decode (fromBE16 (b 70) (b 71))
        (fromBE32 (b (place[k]?.getD 0 - 1)) (b (place[k]?.getD 0 - 1 + 1))
          (b (place[k]?.getD 0 - 1 + 2)) (b (place[k]?.getD 0 - 1 + 3))))) := by
  obtain ⟨ps, e1, e2, e3⟩ := readShares_spec ops cv hcv cvt hT zero P ns 0 d hP (by omega) (fun h => absurd h (by omega)) (List.range P)
    fun r hr => List.mem_range.1 hr
  have hz : ∀ s ∈ ps, s.2.1 = 0 := by
    intro s hs
    have : (s.1, s.2.1) ∈ ps.map (fun s => (s.1, s.2.1)) := List.mem_map.2 ⟨s, hs, rfl⟩
    rw [e3] at this
    obtain ⟨r, hr, he⟩ := List.mem_map.1 this
    rw [Prod.mk.injEq] at he
    have := off_le 0 P (r + 1) hP (List.mem_range.1 hr)
    rw [off_succ] at this
    omega
  have hrec : ∃ b, recv d (.fill (240 * 1) 0#8) (readReqs ns (.list [noTrace]) 1 false true) = .ok b ∧ b.len = 240 ∧
      (3600 ≤ d.size → ∀ r, r < 240 → b.val r = d.byte (3360 - 4 * ns + r)) := by
    have hl := wanted_list 240 [3360 - 4 * ns]
    obtain ⟨b, f1, f2⟩ := fetch_any d _ (.fill (240 * 1) 0#8) (fun m hm => by
      obtain ⟨i, r, hi, hr, rfl⟩ := (hl m).1 hm
      have : i = 0 := by simpa using hi
      subst this
      show 240 * 0 + r < 240 * 1
      omega)
    refine ⟨b, ?_, f2, fun hd r hr => ?_⟩
    · unfold recv readReqs reqMD
      simp only [if_true, Bool.false_eq_true, if_false, List.take_succ_cons, List.take_zero, List.map_cons, List.map_nil,
        loc_noTrace hns, List.flatMap_cons, List.flatMap_nil, List.append_nil]
      rw [if_pos (by simp [legal, DataIO.nondec])]
      exact f1
    · obtain ⟨b', g1, -, g3, -⟩ := fetch_blocks hl (.fill (240 * 1) 0#8) d
        (Nat.le_refl _) (fun i hi => by
          have : i = 0 := by simpa using hi
          subst this
          show 3360 - 4 * ns + 240 ≤ d.size
          omega)
      rw [g1] at f1
      cases f1
      have := g3 0 r (by simp) hr
      simpa using this
  obtain ⟨b, r1, r2, r3⟩ := hrec
  have hw : (Where.list [noTrace]).trace 0 = noTrace := rfl
  obtain ⟨q1, q, g1, g2, g3⟩ := extract_rows ops cvt hT ⟨d.size, fun x => b.val (x % 2 ^ 64 - (3360 - 4 * ns))⟩ ns (.list [noTrace]) 1 0 0
    (mk zero dr 1) (dr_ok zero 1) (Nat.le_refl _) b (by omega) (by omega) (by
      intro i hi o ho
      have : i = 0 := by omega
      subst this
      rw [hw, Nat.mul_zero, Nat.zero_add]
      show b.val ((3600 + noTrace * (240 + 4 * ns) + o) % 2 ^ 64 - (3360 - 4 * ns)) = _
      congr 1
      unfold noTrace
      omega)
  obtain ⟨o, f1, f2, f3, f4, -, f6⟩ := fill_spec ops cvt q g3.wf g3.rule [noTrace] g3.size (List.replicate 12 noTrace)
    (mk zero dr 12) 0 (dr_ok zero _).wf rfl (by show 0 + 12 ≤ 12; omega) (fun k hk => by
      rw [(List.mem_replicate.1 hk).2]; simp)
  refine ⟨o, b.val, ?_, f2, f3, f4, r3, ?_⟩
  · unfold calcMin
    rw [e1, Res.ok_bind, extremes_none ops cv zero _ ps e2 hz, Res.ok_bind]
    unfold rows
    rw [ctor_default, Res.ok_bind, distinct_same]
    unfold readList readTraceT readIn
    have : alloc (mul64 getMDSz [noTrace].length) = .ok (.fill (240 * 1) 0#8) := rfl
    rw [List.length_replicate]
    simp only [this, Res.ok_bind]
    rw [show [noTrace].length = 1 from rfl, r1, Res.ok_bind, g1, Res.ok_bind, g2]
    simp only [Res.ok_bind, onTrace, f1]
  · intro i hi T cv
    obtain ⟨j, hj, k1, k2⟩ := f6 i noTrace (by rw [List.getElem?_replicate, if_pos hi])
    have hj0 : j = 0 := by
      have := (List.getElem?_eq_some_iff.1 hj).1
      simpa using this
    subst hj0
    rw [Nat.zero_add] at k1 k2
    refine ⟨?_, ?_⟩
    · have := k1 T cv
      rw [hI] at this
      exact this
    · intro k hk
      rw [k2 T cv _ (dr_abs hk) (by show 20 + k ≠ 5; omega)]
      have := (shows_of_read g3 rfl (Nat.le_refl _) (show 0 < 1 by omega)).1 k hk T cv
      rw [this, hw]
      unfold coord be16 be32
      have hx : ∀ x, x < 240 → (3600 + noTrace * (240 + 4 * ns) + x) % 2 ^ 64 - (3360 - 4 * ns) = x := by
        intro x hx
        unfold noTrace
        omega
      have hp : ∀ k, k < 6 → place[k]?.getD 0 - 1 + 3 < 240 := by decide
      have := hp k hk
      simp only []
      rw [hx _ (by omega), hx _ (by omega), hx _ (by omega), hx _ (by omega), hx _ (by omega), hx _ (by omega)]

/-- Without traces the number of each extreme is `2 ^ 64 - 1`. Its position is computed modulo `2 ^ 64` and, with at most
840 samples, lies in the header of the file: the twelve rows are written with what is decoded there. -/
theorem C77_empty_refuted (ops : FloatOps F) (cv : Conv F F) (hcv : ∀ x, cv.ofF x = x) (cvt : Conv F (BitVec 64))
    (hT : ∀ v, cvt.toT v = v) (hI : ∀ v, cvt.toI v = v) (zero : F) (P ns : Nat) (d : Disk) (hP : 0 < P)
    (hns : ns ≤ 840) (hd : 3600 ≤ d.size) :
    ∃ o : Param F, calcMin ops cv cvt zero P ns 0 d = .ok o ∧ o.sz = 12 ∧ ∀ i, i < 12 → ∀ (T : Type) (cv : Conv F T),
      getPrm cv i tn o = .ok (cv.ofI (BitVec.ofNat 64 (2 ^ 64 - 1))) ∧
      ∀ k, k < 6 → getPrm cv i (20 + k) o = .ok (cv.ofF (ops.decode
        (fromBE16 (d.byte (3360 - 4 * ns + 70)) (d.byte (3360 - 4 * ns + 71)))
        (fromBE32 (d.byte (3360 - 4 * ns + (place[k]?.getD 0 - 1))) (d.byte (3360 - 4 * ns + (place[k]?.getD 0 - 1 + 1)))
          (d.byte (3360 - 4 * ns + (place[k]?.getD 0 - 1 + 2))) (d.byte (3360 - 4 * ns + (place[k]?.getD 0 - 1 + 3)))))) := by
  obtain ⟨o, b, e1, -, -, e4, e5, e6⟩ := calcMin_none ops cv hcv cvt hT hI zero P ns d hP hns
  refine ⟨o, e1, e4, fun i hi T cv => ⟨(e6 i hi T cv).1, fun k hk => ?_⟩⟩
  have hp : ∀ k, k < 6 → place[k]?.getD 0 - 1 + 3 < 240 := by decide
  have := hp k hk
  rw [(e6 i hi T cv).2 k hk, e5 hd _ (by omega), e5 hd _ (by omega), e5 hd _ (by omega), e5 hd _ (by omega), e5 hd _ (by omega),
    e5 hd _ (by omega)]

/-! ## Examples -/

/-- Coordinates that are whole numbers, with scalar one. -/
def exOps : FloatOps ℤ := ⟨fun _ => .ok 1#16, fun n _ => .ok (BitVec.ofInt 32 n), fun _ n => n.toInt⟩
def exConv : Conv ℤ ℤ := ⟨id, BitVec.ofInt 64, BitVec.ofInt 16, BitVec.ofInt 64, id, BitVec.toInt, BitVec.toInt, BitVec.toInt, 0⟩
def exConvT : Conv ℤ (BitVec 64) :=
  ⟨BitVec.toInt, id, BitVec.setWidth 16, id, BitVec.ofInt 64, id, BitVec.signExtend 64, id, 0⟩

/-- Traces of one sample; the source x of trace `b` is -1, all else is zero. -/
def exDisk (n b : Nat) : Disk :=
  ⟨3600 + n * 244, fun x => if 3672 + b * 244 ≤ x ∧ x < 3676 + b * 244 then 0xff#8 else 0#8⟩

theorem exDisk_coord (n b t : Nat) : coord exOps (exDisk n b) 1 t 0 = if t = b then -1 else 0 := by
  have h : ∀ x, x < 4 → (exDisk n b).byte (3600 + t * (240 + 4 * 1) + (72 + x)) = if t = b then 0xff#8 else 0#8 := by
    intro x hx
    by_cases ht : t = b
    · subst ht
      rw [if_pos rfl]
      exact if_pos (by omega)
    · rw [if_neg ht]
      exact if_neg (by omega)
  show BitVec.toInt (be32 (exDisk n b) 1 t 73) = _
  unfold be32
  rw [show 73 - 1 = 72 + 0 from rfl, show 72 + 0 + 1 = 72 + 1 from rfl, show 72 + 0 + 2 = 72 + 2 from rfl,
    show 72 + 0 + 3 = 72 + 3 from rfl, h 0 (by omega), h 1 (by omega), h 2 (by omega), h 3 (by omega)]
  split <;> decide

/-- The hypotheses of the theorems on the tool: five traces on three processes, the fourth with the smallest source x. -/
example : ∃ (nums : List Nat) (o : Param ℤ) (d' : Disk), calcMin exOps exConv exConvT 0 3 1 5 (exDisk 5 3) = .ok o ∧
    writeRows exOps 3 (1 / 500) o ⟨0, fun _ => 0#8⟩ = .ok d' ∧ nums[0]? = some 3 ∧ be32 d' 1 0 5 = 3#32 ∧
    be32 d' 1 0 73 = 0xffffffff#32 := by
  obtain ⟨nums, o, d', e1, e2, -, -, e5, e6⟩ := C77_file_partial exOps exConv (fun _ => rfl) exConvT (fun _ => rfl)
    (fun _ => rfl) 0 3 1 5 (exDisk 5 3) ⟨0, fun _ => 0#8⟩ (by omega) (by omega) (by omega) (by show 3600 + 5 * 244 ≤ _; rfl)
    (fun t _ k _ => ⟨⟨_, rfl⟩, fun s => ⟨_, rfl⟩⟩) (1 / 500) 2000 (by omega) (by omega) (by norm_num) (by
      rw [abs_of_pos (by norm_num)]
      calc (2 : ℚ) ^ (-1022 : ℤ) ≤ 2 ^ (-20 : ℤ) := zpow_le_zpow_right₀ (by norm_num) (by norm_num)
        _ ≤ _ := by rw [zpow_neg]; norm_num)
  obtain ⟨lo, hi, k1, -, k3, -, k5⟩ := e5 0 (by omega)
  have hlo : lo = 3 := by
    by_contra hne
    have := (k5 3 (by omega)).1
    rw [exDisk_coord, exDisk_coord, if_neg hne, if_pos rfl] at this
    omega
  subst hlo
  obtain ⟨-, g2, -, g4⟩ := e6 0 3 k1
  refine ⟨nums, o, d', e1, e2, k1, g2, ?_⟩
  have := g4 0 (by omega)
  rw [exDisk_coord, if_pos rfl] at this
  exact (Res.ok.inj this).symm

/-- The hypotheses of `C77_number_refuted`: trace `2 ^ 31` of a file of `2 ^ 31 + 1` traces. -/
example : ∀ t, t < 2 ^ 31 + 1 → t ≠ 2 ^ 31 →
    coord exOps (exDisk (2 ^ 31 + 1) (2 ^ 31)) 1 (2 ^ 31) 0 < coord exOps (exDisk (2 ^ 31 + 1) (2 ^ 31)) 1 t 0 := by
  intro t _ h
  rw [exDisk_coord, exDisk_coord, if_pos rfl, if_neg h]
  omega

/-- The hypotheses of `C77_empty_refuted`: a file of a header only. -/
example : ∃ o : Param ℤ, calcMin exOps exConv exConvT 0 2 1 0 (exDisk 0 0) = .ok o ∧ o.sz = 12 := by
  obtain ⟨o, h1, h2, -⟩ := C77_empty_refuted exOps exConv (fun _ => rfl) exConvT (fun _ => rfl) (fun _ => rfl) 0 2 1
    (exDisk 0 0) (by omega) (by omega) (Nat.le_refl _)
  exact ⟨o, h1, h2⟩

/-- A rule with the source number and the depth of water at the source besides the default items. -/
def exRule : Rule := okOr ⟨[], fun _ => 0, 0, 0, false, true⟩ (ctor [10, 18] true true false)

/-- The two are not in the default rule, and every object of this rule has them. -/
example : ctor [10, 18] true true false = .ok exRule ∧ Rules.abs dr 10 = none ∧ Rules.abs dr 18 = none ∧
    ∀ o n, Holding exConv 10 18 (fun _ => 0) (fun _ => 0) (o, n, mk 0 exRule n) := by
  have hc : ctor [10, 18] true true false = .ok exRule := rfl
  have hreach : Reachable exRule := Reach.ctor hc trivial
  have hr : Inv exRule := hreach.inv
  have hm : ∀ m ∈ [10, 18], ∃ q ∈ exRule.map, q.1 = m ∧ ∃ e, q.2 = some e ∧ e.kind ≠ .copy := by
    unfold exRule; decide +kernel
  have hm : ∀ m ∈ [10, 18], ∃ e, (m, some e) ∈ exRule.map ∧ e.kind ≠ .copy := by
    intro m h
    obtain ⟨⟨a, b⟩, h1, h2, e, h3, h4⟩ := hm m h
    simp only at h2 h3
    subst h2 h3
    exact ⟨e, h1, h4⟩
  have hz : ∀ n i m, i < n → m ∈ [10, 18] → getPrm exConv i m (mk 0 exRule n) = .ok 0 := by
    intro n i m hi h
    obtain ⟨e, h1, h2⟩ := hm m h
    rw [getPrm_item exConv (mk 0 exRule n) (mk_wf 0 hr n) h1 hi]
    unfold item
    cases e.kind <;> rfl
  refine ⟨rfl, by unfold dr; decide +kernel, by unfold dr; decide +kernel, fun o n => ⟨mk_wf 0 hr n, rfl, ?_, ?_, ?_, ?_⟩⟩
  · intro hc
    exact absurd (show exRule.cnt .copy = 0 by unfold exRule; decide +kernel) hc
  · obtain ⟨e, h1, -⟩ := hm 10 (by simp)
    rw [show (mk (0 : ℤ) exRule n).rule = exRule from rfl, abs_mem hr h1]; simp
  · obtain ⟨e, h1, -⟩ := hm 18 (by simp)
    rw [show (mk (0 : ℤ) exRule n).rule = exRule from rfl, abs_mem hr h1]; simp
  · intro i hi
    exact ⟨hz n i 10 hi (by simp), hz n i 18 hi (by simp)⟩

end Verif.Extremes
