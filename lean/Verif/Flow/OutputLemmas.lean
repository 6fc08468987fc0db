import Verif.Flow.Output
import Verif.Props.Rounds
import Verif.Props.SetFiles
import Verif.Props.NonMono
import Verif.Props.Writer

/-!
# Lemmas about writing a set
-/

namespace Verif.Flow
open Verif.Rules Verif.Params Verif.Files Verif.Endian Verif.Layout

variable {F : Type}

/-- A conversion that keeps what kind of item it was. -/
def tagged (zero : F) : Conv F (F ⊕ BitVec 64 ⊕ BitVec 16 ⊕ BitVec 64 ⊕ Unit) where
  toF _ := zero
  toI _ := 0
  toS _ := 0
  toT _ := 0
  ofF x := .inl x
  ofI x := .inr (.inl x)
  ofS x := .inr (.inr (.inl x))
  ofT x := .inr (.inr (.inr (.inl x)))
  zero := .inr (.inr (.inr (.inr ())))

/-- Every item of row `j` of `p'` is that of row `s` of `p`. -/
def SameRow (p' : Param F) (j : Nat) (p : Param F) (s : Nat) : Prop :=
  ∀ m e, (m, some e) ∈ p.rule.map → item p' j e = item p s e

theorem item_of_get (zero : F) {p p' : Param F} (hp : WF p) (hp' : WF p') {m : Nat} {e : Entry}
    (hm : (m, some e) ∈ p.rule.map) (hr : p'.rule = p.rule) {s j : Nat} (hs : s < p.sz) (hj : j < p'.sz)
    (hget : getPrm (tagged zero) j m p' = getPrm (tagged zero) s m p) (hk : e.kind ≠ .copy) :
    item p' j e = item p s e := by
  rw [getPrm_item _ p hp hm hs, getPrm_item _ p' hp' (by rw [hr]; exact hm) hj, Res.ok.injEq] at hget
  unfold item at hget ⊢
  cases hk' : e.kind with
  | copy => exact absurd hk' hk
  | float => rw [hk'] at hget; simp only [ofItem, tagged, Sum.inl.injEq] at hget ⊢; exact hget
  | long => rw [hk'] at hget; simp only [ofItem, tagged, Sum.inl.injEq, Sum.inr.injEq] at hget ⊢; exact hget
  | short => rw [hk'] at hget; simp only [ofItem, tagged, Sum.inl.injEq, Sum.inr.injEq] at hget ⊢; exact hget
  | index => rw [hk'] at hget; simp only [ofItem, tagged, Sum.inl.injEq, Sum.inr.injEq] at hget ⊢; exact hget

theorem abs_of_mem {r : Rule} (hr : Inv r) {m : Nat} {e : Entry} (h : (m, some e) ∈ r.map) :
    Rules.abs r m = some (entryVal e) := by
  unfold Rules.abs; rw [find_of_mem hr.keys h]

/-- Copying a row between structures of the same rule. -/
theorem cpy_row (ops : FloatOps F) {p p' : Param F} (hp : WF p) (hp' : WF p') (hr : p'.rule = p.rule)
    (hl : HdrLayout p.rule) (hf : p.rule.fullextent = true) (hst : p.rule.start = 0) (hc : p.c.len ≤ 2 ^ 64)
    {s j : Nat} (hs : s < p.sz) (hj : j < p'.sz) (zero : F) :
    ∃ q, cpyPrm ops s p j p' true = .ok q ∧ WF q ∧ q.rule = p.rule ∧ q.sz = p'.sz ∧ SameRow q j p s ∧
      ∀ row, row < p'.sz → row ≠ j → ∀ m e, (m, some e) ∈ p.rule.map → item q row e = item p' row e := by
  obtain ⟨q, e1, e2, e3, e4, e5, e6, e7⟩ := C16_copy_partial ops p p' hp hp' s j hs hj true (fun _ => hr.symm)
    (fun _ => by rw [hr]; exact ⟨hl, hf, hst, hc⟩)
  have hqr : q.rule = p.rule := e3.trans hr
  refine ⟨q, e1, e2, hqr, e4, ?_, ?_⟩
  · intro m e hm
    have ha := abs_of_mem hp.inv hm
    have ha' : Rules.abs p'.rule m = some (entryVal e) := by rw [hr]; exact ha
    obtain ⟨g1, g2⟩ := e5 m _ _ ha ha' rfl
    by_cases hk : e.kind = .copy
    · have g2 := g2 hk
      unfold item
      simp only [hk]
      congr 4
      exact List.map_congr_left fun o ho => g2 o (List.mem_range.1 ho)
    · exact item_of_get zero hp e2 hm hqr hs (by rw [e4]; exact hj) (g1 _ _) hk
  · intro row hrow hne m e hm
    have ha' : Rules.abs p'.rule m ≠ none := by rw [hr, abs_of_mem hp.inv hm]; simp
    by_cases hk : e.kind = .copy
    · unfold item
      simp only [hk]
      congr 4
      exact List.map_congr_left fun o ho => e7 row hne o (List.mem_range.1 ho)
    · exact item_of_get zero hp' e2 (by rw [hr]; exact hm) e3 hrow (by rw [e4]; exact hrow) (e6 m row ha' hrow hne _ _) hk

theorem arrange_spec (ops : FloatOps F) (zero : F) (ns : Nat) (t : Arr Byte) {p : Param F} (hp : WF p)
    (hl : HdrLayout p.rule) (hf : p.rule.fullextent = true) (hst : p.rule.start = 0) (hc : p.c.len ≤ 2 ^ 64)
    (ht : 4 * (p.sz * ns) ≤ t.len) (l : List Nat) :
    ∀ (j : Nat) (t' : Arr Byte) (p' : Param F), WF p' → p'.rule = p.rule → j + l.length ≤ p'.sz → (∀ s ∈ l, s < p.sz) →
      4 * (p'.sz * ns) ≤ t'.len →
      ∃ t1 p1, arrange ops ns t p t' p' j l = .ok (t1, p1) ∧ t1.len = t'.len ∧ WF p1 ∧ p1.rule = p.rule ∧ p1.sz = p'.sz ∧
        (∀ i s, l[i]? = some s → SameRow p1 (j + i) p s) ∧
        (∀ row, row < j → ∀ m e, (m, some e) ∈ p.rule.map → item p1 row e = item p' row e) ∧
        (∀ i s, l[i]? = some s → ∀ y, y < 4 * ns → t1.val (4 * ((j + i) * ns) + y) = t.val (4 * (s * ns) + y)) ∧
        ∀ z, z < 4 * (j * ns) → t1.val z = t'.val z := by
  induction l with
  | nil =>
    intro j t' p' hp' hr _ _ _
    exact ⟨t', p', rfl, rfl, hp', hr, rfl, by simp, fun _ _ _ _ _ => rfl, by simp, fun _ _ => rfl⟩
  | cons s l ih =>
    intro j t' p' hp' hr hj hs ht'
    rw [List.length_cons] at hj
    have hs0 := hs s (by simp)
    obtain ⟨q, e1, e2, e3, e4, e5, e6⟩ := cpy_row ops hp hp' hr hl hf hst hc hs0 (show j < p'.sz by omega) zero
    have m1 : 4 * (s * ns) + 4 * ns ≤ t.len := by
      have := Nat.mul_le_mul_right ns (Nat.succ_le_of_lt hs0)
      rw [Nat.succ_mul] at this; omega
    have m2 : 4 * (j * ns) + 4 * ns ≤ t'.len := by
      have := Nat.mul_le_mul_right ns (show j.succ ≤ p'.sz by omega)
      rw [Nat.succ_mul] at this; omega
    obtain ⟨a, c1, c2, c3, c4⟩ := Arr.copy_spec (4 * ns) t (4 * (s * ns)) t' (4 * (j * ns)) m1 m2
    obtain ⟨t1, p1, g1, g2, g3, g4, g5, g6, g7, g8, g9⟩ := ih (j + 1) a q e2 e3 (by rw [e4]; omega)
      (fun x hx => hs x (by simp [hx])) (by rw [e4, c2]; exact ht')
    have hjn : (j + 1) * ns = j * ns + ns := Nat.succ_mul _ _
    refine ⟨t1, p1, ?_, g2.trans c2, g3, g4, g5.trans e4, ?_, ?_, ?_, ?_⟩
    · unfold arrange; rw [e1, Res.ok_bind, c1, Res.ok_bind]; exact g1
    · intro i s' hi
      cases i with
      | zero =>
        simp only [List.getElem?_cons_zero, Option.some.injEq] at hi
        subst hi
        intro m e hm
        rw [Nat.add_zero, g7 j (by omega) m e hm, e5 m e hm]
      | succ i =>
        rw [List.getElem?_cons_succ] at hi
        rw [show j + (i + 1) = j + 1 + i by omega]
        exact g6 i s' hi
    · intro row hrow m e hm
      rw [g7 row (by omega) m e hm, e6 row (by omega) (by omega) m e hm]
    · intro i s' hi y hy
      cases i with
      | zero =>
        simp only [List.getElem?_cons_zero, Option.some.injEq] at hi
        subst hi
        rw [Nat.add_zero, g9 _ (by rw [hjn]; omega), c4 y hy]
      | succ i =>
        rw [List.getElem?_cons_succ] at hi
        rw [show j + (i + 1) = j + 1 + i by omega]
        exact g8 i s' hi y hy
    · intro z hz
      rw [g9 z (by rw [hjn]; omega), c3 z (by omega)]

/-- The conversions of coordinates as far as they are used to read a header and write it again. -/
def Convertible (ops : FloatOps F) : Prop :=
  ∀ s n, (∃ r, ops.findScalar (ops.decode s n) = .ok r) ∧ ∀ s', ∃ r, ops.encode (ops.decode s n) s' = .ok r

/-- A rule that reads and writes whole headers. -/
structure RuleOk (r : Rule) : Prop where
  inv : Inv r
  layout : HdrLayout r
  full : r.fullextent = true
  start : r.start = 0
  ltn : ∃ e, (ltn, some e) ∈ r.map ∧ e.kind = .index

/-- The record of trace `k` in `d` read and written again as trace `k'` of `o`: the samples are the same, and the
header is what comes of reading the one header with the rule and writing it. -/
structure Again (ops : FloatOps F) (rule : Rule) (ns : Nat) (d : Disk) (k : Nat) (o : Disk) (k' : Nat) : Prop where
  samples : ∀ s, s < ns → dsamp o ns k' s = dsamp d ns k s
  header : ∃ (p : Param F) (row : Nat), WF p ∧ p.rule = rule ∧ row < p.sz ∧
    Decoded ops (dhdr d ns k) row 0 p rule.map ∧
    (rule.cnt .copy ≠ 0 → ∀ x, x < 240 → p.c.val (row * 240 + x) = (dhdr d ns k).val x) ∧
    Header (fsOf ops) (enOf ops) p row (dhdr o ns k')

/-- Trace `j` of a block in memory. -/
def memTrace (t : Arr Byte) (ns j : Nat) : List Flt := (List.range ns).map fun s => ⟨sample t (j * ns + s)⟩

/-- The samples of trace `k` of a file. -/
def trace (d : Disk) (ns k : Nat) : List Flt := (List.range ns).map fun s => ⟨dsamp d ns k s⟩

/-- The operations of `queue` turn every block of traces that are all in `D` into a block with traces that are `R` of these. -/
def QueueOk (queue : List BlockOp) (ns : Nat) (D : List Flt → Prop) (R : List Flt → List Flt → Prop) : Prop :=
  ∀ n t, 0 < n → t.len = 4 * (n * ns) → 4 * (n * ns) ≤ 2 ^ 63 → (∀ j, j < n → D (memTrace t ns j)) →
    ∃ t', runQueue queue n ns t = .ok t' ∧ t'.len = t.len ∧ ∀ j, j < n → R (memTrace t ns j) (memTrace t' ns j)

theorem queueOk_nil (ns : Nat) : QueueOk [] ns (fun _ => True) Eq := fun _ t _ _ _ _ => ⟨t, rfl, rfl, fun _ _ => rfl⟩

/-- The record of trace `k` in `d` read, changed into samples in the relation `R` to its own, and written as trace `k'` of `o`. -/
structure AgainBy (R : List Flt → List Flt → Prop) (ops : FloatOps F) (rule : Rule) (ns : Nat) (d : Disk) (k : Nat) (o : Disk)
    (k' : Nat) : Prop where
  samples : R (trace d ns k) (trace o ns k')
  header : ∃ (p : Param F) (row : Nat), WF p ∧ p.rule = rule ∧ row < p.sz ∧
    Decoded ops (dhdr d ns k) row 0 p rule.map ∧
    (rule.cnt .copy ≠ 0 → ∀ x, x < 240 → p.c.val (row * 240 + x) = (dhdr d ns k).val x) ∧
    Header (fsOf ops) (enOf ops) p row (dhdr o ns k')

theorem trace_get {d : Disk} {ns k s : Nat} (h : s < ns) : (trace d ns k)[s]? = some ⟨dsamp d ns k s⟩ := by
  unfold trace
  rw [List.getElem?_map, List.getElem?_range h]; rfl

theorem AgainBy.again {ops : FloatOps F} {rule : Rule} {ns : Nat} {d o : Disk} {k k' : Nat}
    (h : AgainBy Eq ops rule ns d k o k') : Again ops rule ns d k o k' := by
  refine ⟨fun s hs => ?_, h.header⟩
  have : (trace d ns k)[s]? = (trace o ns k')[s]? := by rw [h.samples]
  rw [trace_get hs, trace_get hs, Option.some.injEq, Flt.mk.injEq] at this
  exact this.symm

theorem Decoded.same {ops : FloatOps F} {h : Arr Byte} {p p' : Param F} {s j : Nat} (hr : p'.rule = p.rule)
    (hd : Decoded ops h s 0 p p.rule.map) (he : SameRow p' j p s) : Decoded ops h j 0 p' p.rule.map := by
  intro m e hm
  obtain ⟨h1, h2, h3⟩ := hd m e hm
  have hi := he m e hm
  unfold item at hi
  rw [hr] at hi ⊢
  refine ⟨fun hk => ?_, fun hk => ?_, fun hk => ?_⟩
  · simp only [hk, Sum.inr.injEq, Sum.inl.injEq] at hi
    rw [Nat.mul_comm, hi, Nat.mul_comm]; exact h1 hk
  · simp only [hk, Sum.inr.injEq, Sum.inl.injEq] at hi
    rw [Nat.mul_comm, hi, Nat.mul_comm]; exact h2 hk
  · simp only [hk, Sum.inl.injEq] at hi
    rw [Nat.mul_comm, hi, Nat.mul_comm]; exact h3 hk

theorem slot_of {r : Rule} (hr : Inv r) (k : Kind) {n : Nat} (hn : n < r.cnt k) :
    ∃ m e, (m, some e) ∈ r.map ∧ e.kind = k ∧ e.num = n := by
  have hlen := hr.len k
  have hnd := hr.nodup k
  have hlt := hr.lt k
  have hsub : (nums k r.map).Subset (List.range (r.cnt k)) := fun x hx => List.mem_range.2 (hlt x hx)
  have hperm : (nums k r.map).Perm (List.range (r.cnt k)) :=
    (List.subperm_of_subset hnd hsub).perm_of_length_le (by simp [hlen])
  have hmem : n ∈ nums k r.map := hperm.mem_iff.2 (List.mem_range.2 hn)
  unfold nums at hmem
  obtain ⟨⟨m, o⟩, hq, hs⟩ := List.mem_filterMap.1 hmem
  unfold slot at hs
  cases o with
  | none => simp at hs
  | some e =>
    simp only at hs
    split at hs
    · rename_i hk
      exact ⟨m, e, hq, hk, by simpa using hs⟩
    · simp at hs

theorem idx_getElem {idx : List Nat → List Nat} (hidx : IsSortIndex idx) (l : List Nat) {i : Nat} (hi : i < l.length) :
    ∃ j, j < l.length ∧ (idx l)[j]? = some i := by
  have hm : i ∈ idx l := (hidx l).1.mem_iff.2 (List.mem_range.2 hi)
  obtain ⟨j, hj, he⟩ := List.getElem_of_mem hm
  have hl := (hidx l).1.length_eq
  rw [List.length_range] at hl
  exact ⟨j, by omega, by rw [List.getElem?_eq_getElem hj, he]⟩

theorem idx_length {idx : List Nat → List Nat} (hidx : IsSortIndex idx) (l : List Nat) : (idx l).length = l.length := by
  rw [(hidx l).1.length_eq, List.length_range]

theorem placesOf_length {idx : List Nat → List Nat} (hidx : IsSortIndex idx) (b : Chunk) :
    (placesOf idx b).length = b.olst.length := by
  unfold placesOf; rw [List.length_map, idx_length hidx]

theorem placesOf_perm {idx : List Nat → List Nat} (hidx : IsSortIndex idx) (b : Chunk) :
    (placesOf idx b).Perm b.olst := by
  unfold placesOf
  refine ((hidx b.olst).1.map _).trans ?_
  have : (List.range b.olst.length).map (fun j => b.olst[j]?.getD 0) = b.olst := by
    apply List.ext_getElem
    · simp
    · intro n h1 h2
      simp [h2]
  rw [this]

theorem placesOf_le {idx : List Nat → List Nat} (hidx : IsSortIndex idx) (b : Chunk) :
    (placesOf idx b).Pairwise (· ≤ ·) := by
  have := (hidx b.olst).2
  unfold placesOf
  simpa only [List.getD_eq_getElem?_getD] using this

theorem placesOf_lt {idx : List Nat → List Nat} (hidx : IsSortIndex idx) (b : Chunk) (hn : b.olst.Nodup) :
    (placesOf idx b).Pairwise (· < ·) := by
  have h1 := placesOf_le hidx b
  have h2 : (placesOf idx b).Nodup := (placesOf_perm hidx b).nodup_iff.2 hn
  exact (h1.and h2).imp fun ⟨a, b⟩ => lt_of_le_of_ne a b

theorem placesOf_get {idx : List Nat → List Nat} (b : Chunk) {i j : Nat} (h : (idx b.olst)[j]? = some i) :
    (placesOf idx b)[j]? = some (b.olst[i]?.getD 0) := by
  unfold placesOf; rw [List.getElem?_map, h]; rfl

theorem inc_of_lt {l : List Nat} (h : l.Pairwise (· < ·)) : Inc (.list l) l.length := by
  intro i j hij hj
  show l[i]?.getD 0 < l[j]?.getD 0
  rw [List.getElem?_eq_getElem (by omega), List.getElem?_eq_getElem hj]
  exact List.pairwise_iff_getElem.1 h i j _ _ hij

theorem small_list {ns N : Nat} {l : List Nat} (hN : taddr ns N < 2 ^ 63) (hl : ∀ x ∈ l, x < N) (hinc : l.Pairwise (· < ·)) :
    Small ns (.list l) l.length N := by
  refine ⟨hN, ?_, by simp, by rintro l' h; cases h; rfl, ?_⟩
  · intro i hi
    show l[i]?.getD 0 < N
    rw [List.getElem?_eq_getElem hi]
    exact hl _ (List.getElem_mem hi)
  · have := inc_len l 0 N hinc (fun x hx => ⟨Nat.zero_le _, hl x hx⟩) (Nat.zero_le _)
    omega

/-- What a block needs: its traces are in the file `d` of `nt` traces, in order, and their places below `N`, all different. -/
structure ChunkOk (ns : Nat) (d : Disk) (nt N : Nat) (b : Chunk) : Prop where
  isz : taddr ns nt < 2 ^ 63
  dsz : taddr ns nt ≤ d.size
  osz : taddr ns N < 2 ^ 63
  ilt : ∀ x ∈ b.ilst, x < nt
  inc : b.ilst.Pairwise (· < ·)
  olt : ∀ x ∈ b.olst, x < N
  nodup : b.olst.Nodup
  len : b.ilst.length = b.olst.length
  ne : 0 < b.ilst.length

theorem RuleOk.rd {r : Rule} (h : RuleOk r) (zero : F) (n : Nat) : RdOk (Params.mk zero r n) :=
  ⟨mk_wf zero h.inv n, h.layout, h.full, h.start, h.ltn⟩

theorem copy_bytes {ns nt : Nat} (h : taddr ns nt < 2 ^ 63) {n : Nat} (hn : n ≤ nt) : n * 240 ≤ 2 ^ 64 := by
  have h1 : n * 240 ≤ nt * 240 := Nat.mul_le_mul_right _ hn
  have h2 : nt * 240 ≤ nt * (240 + 4 * ns) := Nat.mul_le_mul_left _ (by omega)
  unfold taddr at h
  omega

theorem sample_bytes {ns nt : Nat} (h : taddr ns nt < 2 ^ 63) {n : Nat} (hn : n ≤ nt) : 4 * (n * ns) ≤ 2 ^ 63 := by
  have h1 : n * (4 * ns) ≤ nt * (4 * ns) := Nat.mul_le_mul_right _ hn
  have h2 : nt * (4 * ns) ≤ nt * (240 + 4 * ns) := Nat.mul_le_mul_left _ (by omega)
  have h3 : n * (4 * ns) = 4 * (n * ns) := by rw [← Nat.mul_assoc, Nat.mul_comm n 4, Nat.mul_assoc]
  unfold taddr at h
  omega

/-- A block up to the operations: the traces are read and put in order. -/
theorem block_front (ops : FloatOps F) (cv : Conv F (BitVec 64)) (hcv : ∀ v, cv.toT v = v) (zero : F) (rule : Rule)
    (hrule : RuleOk rule) (idx : List Nat → List Nat)
    (hidx : IsSortIndex idx) (ns : Nat) (d : Disk) (nt N : Nat) (b : Chunk) (hb : ChunkOk ns d nt N b) :
    ∃ (t1 : Arr Byte) (p1 : Param F), t1.len = 4 * (b.ilst.length * ns) ∧
      (∀ j i k, (idx b.olst)[j]? = some i → b.ilst[i]? = some k → memTrace t1 ns j = trace d ns k) ∧
      ∀ queue o, runBlock queue ops cv zero rule ns idx d false b o = (do
        let t2 ← runQueue queue b.ilst.length ns t1
        let q ← writeTraceT ops ns (.list (placesOf idx b)) b.ilst.length (some t2) (some p1) 0 o
        .ok q.1) := by
  have hsm := small_list hb.isz hb.ilt hb.inc
  have hinc := inc_of_lt hb.inc
  have hwhere : ∀ i k, b.ilst[i]? = some k → (Where.list b.ilst).trace i = k := by
    intro i k h; show b.ilst[i]?.getD 0 = k; rw [h]; rfl
  have hlen : b.olst.length = b.ilst.length := hb.len.symm
  have hne := hb.ne
  generalize hn : b.ilst.length = n at *
  obtain ⟨t', p', r1, -, -, r2, r3⟩ := read_spec ops cv hcv ns (.list b.ilst) n (some (.fill (4 * (n * ns)) 0#8))
    (some (Params.mk zero rule n)) 0 d nt hsm (fun i j h1 h2 => Nat.le_of_lt (hinc i j h1 h2))
    (fun i hi => Nat.le_trans (taddr_le (hsm.lt i hi)) hb.dsz)
    (by
      rintro t h; cases h
      have := sample_bytes hb.isz hsm.cnt
      refine ⟨?_, this⟩
      show 4 * (ns * n) ≤ 4 * (n * ns)
      rw [Nat.mul_comm ns])
    (by rintro p h; cases h; exact ⟨hrule.rd zero n, Nat.le_refl _⟩) (by simp)
  obtain ⟨t, rfl, hsamp⟩ := r2 _ rfl
  obtain ⟨p, rfl, hrows⟩ := r3 _ rfl
  have hpr : p.rule = rule := hrows.rule
  have hpz : p.sz = n := hrows.size
  have hpc : p.c.len ≤ 2 ^ 64 := by
    rw [hrows.wf.c, hpz]
    split
    · exact copy_bytes hb.isz hsm.cnt
    · omega
  have hil : (idx b.olst).length = n := by rw [idx_length hidx, hlen]
  obtain ⟨t1, p1, a1, a2, a3, a4, a5, a6, -, a8, -⟩ := arrange_spec ops zero ns t hrows.wf (by rw [hpr]; exact hrule.layout)
    (by rw [hpr]; exact hrule.full) (by rw [hpr]; exact hrule.start) hpc
    (by rw [hsamp.len, hpz]; exact Nat.le_refl _) (idx b.olst) 0 (.fill (4 * (n * ns)) 0#8) (Params.mk zero rule n)
    (mk_wf zero hrule.inv n) hpr.symm (by rw [hil]; show 0 + n ≤ n; omega)
    (by
      intro s hs
      rw [hpz, ← hlen]
      exact List.mem_range.1 ((hidx b.olst).1.mem_iff.1 hs)) (Nat.le_refl _)
  simp only [Nat.zero_add] at a6 a8
  have hmem : ∀ j i k, (idx b.olst)[j]? = some i → b.ilst[i]? = some k → memTrace t1 ns j = trace d ns k := by
    intro j i k hji hi
    have hin : i < n := by rw [← hn]; exact (List.getElem?_eq_some_iff.1 hi).1
    unfold memTrace trace
    refine List.map_congr_left fun s hs => ?_
    have hs := List.mem_range.1 hs
    rw [← hwhere i k hi, ← hsamp.samples i s hin hs]
    refine congrArg Flt.mk ?_
    apply sample_shift
    intro y hy
    have := a8 j i hji (4 * s + y) (by omega)
    rw [Nat.mul_add, Nat.mul_add, Nat.add_assoc, Nat.add_assoc]
    exact this
  refine ⟨t1, p1, a2, hmem, fun queue o => ?_⟩
  unfold runBlock readList
  simp only [hn]
  rw [r1, Res.ok_bind]
  simp only
  rw [a1, Res.ok_bind]

/-- A block whose traces have been read, `S k` being what was read of the samples of trace `k`. -/
theorem block_gen {queue : List BlockOp} {D : List Flt → Prop} {R : List Flt → List Flt → Prop} (ops : FloatOps F)
    (cv : Conv F (BitVec 64)) (zero : F) (rule : Rule)
    (hrule : RuleOk rule) (hconv : rule.cnt .float = 0 ∨ Convertible ops) (idx : List Nat → List Nat)
    (hidx : IsSortIndex idx) (ns : Nat) (d : Disk) (nt N : Nat) (b : Chunk) (hb : ChunkOk ns d nt N b) (ibm : Bool)
    (S : Nat → List Flt) {t : Arr Byte} {p : Param F}
    (r1 : readTraceT ops cv ibm ns (.list b.ilst) b.ilst.length (some (.fill (4 * (b.ilst.length * ns)) 0#8))
      (some (Params.mk zero rule b.ilst.length)) 0 d = .ok (some t, some p))
    (hlen' : t.len = 4 * (b.ilst.length * ns)) (hS : ∀ i k, b.ilst[i]? = some k → memTrace t ns i = S k)
    (hrows : RowsRead ops d ns (.list b.ilst) b.ilst.length 0 (Params.mk zero rule b.ilst.length) p)
    (hq : QueueOk queue ns D R) (hD : ∀ k ∈ b.ilst, D (S k)) (o : Disk) :
    ∃ o', runBlock queue ops cv zero rule ns idx d ibm b o = .ok o' ∧ o.size ≤ o'.size ∧
      (∀ (i k k' : Nat), b.ilst[i]? = some k → b.olst[i]? = some k' → AgainBy (fun _ y => R (S k) y) ops rule ns d k o' k') ∧
      ∀ x, (∀ k ∈ b.olst, ¬ (taddr ns k ≤ x ∧ x < taddr ns k + (240 + 4 * ns))) → o'.byte x = o.byte x := by
  have hsm := small_list hb.isz hb.ilt hb.inc
  have hinc := inc_of_lt hb.inc
  have hwhere : ∀ i k, b.ilst[i]? = some k → (Where.list b.ilst).trace i = k := by
    intro i k h; show b.ilst[i]?.getD 0 = k; rw [h]; rfl
  have hlen : b.olst.length = b.ilst.length := hb.len.symm
  have hne := hb.ne
  generalize hn : b.ilst.length = n at *
  have hpr : p.rule = rule := hrows.rule
  have hpz : p.sz = n := hrows.size
  have hpc : p.c.len ≤ 2 ^ 64 := by
    rw [hrows.wf.c, hpz]
    split
    · exact copy_bytes hb.isz hsm.cnt
    · omega
  have hil : (idx b.olst).length = n := by rw [idx_length hidx, hlen]
  obtain ⟨t1, p1, a1, a2, a3, a4, a5, a6, -, a8, -⟩ := arrange_spec ops zero ns t hrows.wf (by rw [hpr]; exact hrule.layout)
    (by rw [hpr]; exact hrule.full) (by rw [hpr]; exact hrule.start) hpc
    (by rw [hlen', hpz]) (idx b.olst) 0 (.fill (4 * (n * ns)) 0#8) (Params.mk zero rule n)
    (mk_wf zero hrule.inv n) hpr.symm (by rw [hil]; show 0 + n ≤ n; omega)
    (by
      intro s hs
      rw [hpz, ← hlen]
      exact List.mem_range.1 ((hidx b.olst).1.mem_iff.1 hs)) (Nat.le_refl _)
  simp only [Nat.zero_add] at a6 a8
  have hmem : ∀ j i k, (idx b.olst)[j]? = some i → b.ilst[i]? = some k → memTrace t1 ns j = S k := by
    intro j i k hji hi
    have hin : i < n := by rw [← hn]; exact (List.getElem?_eq_some_iff.1 hi).1
    rw [← hS i k hi]
    unfold memTrace
    refine List.map_congr_left fun s hs => ?_
    have hs := List.mem_range.1 hs
    refine congrArg Flt.mk ?_
    apply sample_shift
    intro y hy
    have := a8 j i hji (4 * s + y) (by omega)
    rw [Nat.mul_add, Nat.mul_add, Nat.add_assoc, Nat.add_assoc]
    exact this
  have hp1r : p1.rule = rule := a4.trans hpr
  have hp1z : p1.sz = n := a5
  have hdec : ∀ i k j, b.ilst[i]? = some k → (idx b.olst)[j]? = some i →
      Decoded ops (dhdr d ns k) j 0 p1 rule.map := by
    intro i k j hi hj
    have hin : i < n := by rw [← hn]; exact (List.getElem?_eq_some_iff.1 hi).1
    have h0 := hrows.dec i hin
    rw [hwhere i k hi, Nat.add_zero] at h0
    have h1 := Decoded.same (p' := p1) (p := p) (s := i) (j := j) (ops := ops) (h := dhdr d ns k)
      (hp1r.trans hpr.symm) (by rw [hpr]; exact h0) (a6 j i hj)
    rw [hpr] at h1; exact h1
  have hget : ∀ j, j < n → ∃ i k, (idx b.olst)[j]? = some i ∧ b.ilst[i]? = some k := by
    intro j hj
    have hj' : j < (idx b.olst).length := by omega
    have hm : (idx b.olst)[j] < b.olst.length := List.mem_range.1 ((hidx b.olst).1.mem_iff.1 (List.getElem_mem hj'))
    exact ⟨_, _, List.getElem?_eq_getElem hj', List.getElem?_eq_getElem (by omega)⟩
  obtain ⟨t2, q1, q2, q3⟩ := hq n t1 hne a2 (sample_bytes hb.isz hsm.cnt) (by
    intro j hj
    obtain ⟨i, k, h1, h2⟩ := hget j hj
    rw [hmem j i k h1 h2]
    exact hD k (List.mem_of_getElem? h2))
  have hfloat : ∀ x, x < p1.f.len → ∃ s m, p1.f.val x = ops.decode s m := by
    intro x hx
    rw [a3.f, hp1r, hp1z] at hx
    have hpos : 0 < rule.cnt .float := by
      rcases Nat.eq_zero_or_pos (rule.cnt .float) with h | h
      · rw [h] at hx; omega
      · exact h
    obtain ⟨m, e, hm, hk, hnum⟩ := slot_of hrule.inv .float (Nat.mod_lt x hpos)
    have hj : x / rule.cnt .float < n := by rw [Nat.div_lt_iff_lt_mul hpos]; exact hx
    obtain ⟨i, k, h1, h2⟩ := hget _ hj
    have := (hdec i k _ h2 h1 m e hm).2.2 hk
    rw [hp1r, hnum, Nat.div_add_mod'] at this
    exact ⟨_, _, this⟩
  have hplen : (placesOf idx b).length = n := by rw [placesOf_length hidx, hlen]
  have hop : WOp.Ok ops ns N (⟨.list (placesOf idx b), n, some t2, some p1, 0⟩ : WOp F) := by
    have hlt := placesOf_lt hidx b hb.nodup
    have hs := small_list hb.osz (fun x hx => hb.olt x ((placesOf_perm hidx b).mem_iff.1 hx)) hlt
    have hi := inc_of_lt hlt
    rw [hplen] at hs hi
    refine ⟨hs, hi, ?_, ?_, by simp⟩
    · rintro t h; cases h
      rw [q2, a2]
      have := sample_bytes hb.isz hsm.cnt
      refine ⟨?_, this⟩
      show 4 * (ns * n) ≤ 4 * (n * ns)
      rw [Nat.mul_comm ns]
    · rintro p h; cases h
      refine ⟨⟨a3, by rw [hp1r]; exact hrule.layout, by rw [hp1r]; exact hrule.full, by rw [hp1r]; exact hrule.start,
        ?_, ?_⟩, by show n + 0 ≤ p1.sz; omega⟩
      · intro x hx
        rcases hconv with h | h
        · rw [a3.f, hp1r, h] at hx; omega
        · obtain ⟨s, m, he⟩ := hfloat x hx
          rw [he]; exact (h s m).1
      · intro x hx s'
        rcases hconv with h | h
        · rw [a3.f, hp1r, h] at hx; omega
        · obtain ⟨s, m, he⟩ := hfloat x hx
          rw [he]; exact (h s m).2 s'
  obtain ⟨o', w1, w5, w6, w3, w2, -, -⟩ := write_spec ops ns _ n _ _ 0 o N hop.small hop.inc hop.trc hop.prm hop.any
  refine ⟨o', ?_, w2, ?_, ?_⟩
  · unfold runBlock readList
    simp only [hn]
    rw [r1, Res.ok_bind]
    simp only
    rw [a1, Res.ok_bind]
    simp only
    rw [q1, Res.ok_bind, w1, Res.ok_bind]
  · intro i k k' hi hi'
    have hin : i < n := by rw [← hn]; exact (List.getElem?_eq_some_iff.1 hi).1
    obtain ⟨j, hj, hji⟩ := idx_getElem hidx b.olst (show i < b.olst.length by omega)
    have hpl : (Where.list (placesOf idx b)).trace j = k' := by
      show (placesOf idx b)[j]?.getD 0 = k'
      rw [placesOf_get b hji, hi']; rfl
    have hjn : j < n := by omega
    refine ⟨?_, p1, j, a3, hp1r, by omega, hdec i k j hi hji, ?_, ?_⟩
    · have ht : trace o' ns k' = memTrace t2 ns j := by
        unfold memTrace trace
        refine List.map_congr_left fun s hs => ?_
        have h1 := w5 t2 rfl j s hjn (List.mem_range.1 hs)
        rw [hpl] at h1
        rw [h1]
      show R (S k) (trace o' ns k')
      rw [ht, ← hmem j i k hji hi]
      exact q3 j hjn
    · intro hc x hx
      obtain ⟨m, e, hm, hk, -⟩ := slot_of hrule.inv .copy (Nat.pos_of_ne_zero hc)
      have hrow := a6 j i hji m e (by rw [hpr]; exact hm)
      unfold item at hrow
      simp only [hk, Sum.inr.injEq] at hrow
      have hrow := congrArg (fun l => l[x]?) hrow
      simp only [List.getElem?_map, List.getElem?_range hx, Option.map_some, Option.some.injEq] at hrow
      rw [hrow, ← hwhere i k hi]
      have := hrows.raw hc i hin x hx
      rwa [Nat.add_zero] at this
    · have := w6 p1 rfl j hjn
      rw [hpl] at this
      exact this
  · intro x hx
    refine w3 x fun i hi => ?_
    have hmem : (Where.list (placesOf idx b)).trace i ∈ b.olst := by
      rw [← (placesOf_perm hidx b).mem_iff]
      show (placesOf idx b)[i]?.getD 0 ∈ _
      rw [List.getElem?_eq_getElem (by omega)]
      exact List.getElem_mem _
    have := hx _ hmem
    dsimp only
    exact ⟨fun _ => by omega, fun _ => by omega⟩

theorem block_specQ {queue : List BlockOp} {D : List Flt → Prop} {R : List Flt → List Flt → Prop} (ops : FloatOps F) (cv : Conv F (BitVec 64)) (hcv : ∀ v, cv.toT v = v) (zero : F) (rule : Rule)
    (hrule : RuleOk rule) (hconv : rule.cnt .float = 0 ∨ Convertible ops) (idx : List Nat → List Nat)
    (hidx : IsSortIndex idx) (ns : Nat) (d : Disk) (nt N : Nat) (b : Chunk) (hb : ChunkOk ns d nt N b)
    (hq : QueueOk queue ns D R) (hD : ∀ k ∈ b.ilst, D (trace d ns k)) (o : Disk) :
    ∃ o', runBlock queue ops cv zero rule ns idx d false b o = .ok o' ∧ o.size ≤ o'.size ∧
      (∀ (i k k' : Nat), b.ilst[i]? = some k → b.olst[i]? = some k' → AgainBy R ops rule ns d k o' k') ∧
      ∀ x, (∀ k ∈ b.olst, ¬ (taddr ns k ≤ x ∧ x < taddr ns k + (240 + 4 * ns))) → o'.byte x = o.byte x := by
  have hsm := small_list hb.isz hb.ilt hb.inc
  have hinc := inc_of_lt hb.inc
  obtain ⟨t', p', r1, -, -, r2, r3⟩ := read_spec ops cv hcv ns (.list b.ilst) b.ilst.length
    (some (.fill (4 * (b.ilst.length * ns)) 0#8))
    (some (Params.mk zero rule b.ilst.length)) 0 d nt hsm (fun i j h1 h2 => Nat.le_of_lt (hinc i j h1 h2))
    (fun i hi => Nat.le_trans (taddr_le (hsm.lt i hi)) hb.dsz)
    (by
      rintro t h; cases h
      have := sample_bytes hb.isz hsm.cnt
      refine ⟨?_, this⟩
      show 4 * (ns * b.ilst.length) ≤ 4 * (b.ilst.length * ns)
      rw [Nat.mul_comm ns])
    (by rintro p h; cases h; exact ⟨hrule.rd zero _, Nat.le_refl _⟩) (by simp)
  obtain ⟨t, rfl, hsamp⟩ := r2 _ rfl
  obtain ⟨p, rfl, hrows⟩ := r3 _ rfl
  obtain ⟨o', e1, e2, e3, e4⟩ := block_gen ops cv zero rule hrule hconv idx hidx ns d nt N b hb false (trace d ns) r1 hsamp.len (by
    intro i k hi
    unfold memTrace trace
    refine List.map_congr_left fun s hs => ?_
    rw [hsamp.samples i s (List.getElem?_eq_some_iff.1 hi).1 (List.mem_range.1 hs)]
    show _ = (⟨dsamp d ns k s⟩ : Flt)
    have : (Where.list b.ilst).trace i = k := by show b.ilst[i]?.getD 0 = k; rw [hi]; rfl
    rw [this]) hrows hq hD o
  exact ⟨o', e1, e2, fun i k k' h1 h2 => ⟨(e3 i k k' h1 h2).samples, (e3 i k k' h1 h2).header⟩, e4⟩

/-- One half, `ns` times: what is read of a trace in the IBM format. -/
def halves (ns : Nat) : List Flt := List.replicate ns ⟨0x3F000000#32⟩

/-- What is read of trace `k`. -/
def seen (ibm : Bool) (d : Disk) (ns k : Nat) : List Flt := if ibm then halves ns else trace d ns k

/-- The word of sample `s` of trace `k` as it lies in memory before it is converted. -/
def native (d : Disk) (ns k s : Nat) : BitVec 32 :=
  fromBE32 (d.byte (taddr ns k + 240 + 4 * s + 3)) (d.byte (taddr ns k + 240 + 4 * s + 2))
    (d.byte (taddr ns k + 240 + 4 * s + 1)) (d.byte (taddr ns k + 240 + 4 * s))

/-- The conversion of the word from the IBM format is defined. -/
def Quiet (w : BitVec 32) : Prop :=
  ∃ v, IBM.fromIBMToFloat (dByte (f2d w) 0) (dByte (f2d w) 1) (dByte (f2d w) 2) (dByte (f2d w) 3) true = .ok v

theorem word_inj {a b c d a' b' c' d' : Byte} (h : fromBE32 a b c d = fromBE32 a' b' c' d') :
    a = a' ∧ b = b' ∧ c = c' ∧ d = d' := by
  have := congrArg (toBESigned 4) h
  rw [C03_roundtrip32_bytes, C03_roundtrip32_bytes] at this
  simpa using this

theorem fromIBM_ok (n : Nat) : ∀ (i : Nat) (m : Arr Byte), 4 * (i + n) ≤ m.len → m.len ≤ 2 ^ 64 →
    (∀ j, i ≤ j → j < i + n → Quiet (sample m j)) → ∃ m', fromIBM m i n = .ok m' := by
  induction n with
  | zero => intro i m _ _ _; exact ⟨m, rfl⟩
  | succ n ih =>
    intro i m hlen hl h
    obtain ⟨v, hv⟩ := h i (Nat.le_refl _) (by omega)
    unfold fromIBM
    rw [loadF_ok (by omega), Res.ok_bind]
    simp only
    rw [hv, Res.ok_bind]
    have hlen4 : (toBEUnsigned 4 v).reverse.length = 4 := by simp [toBEUnsigned]
    obtain ⟨a, h1, -⟩ := Arr.writes_spec (toBEUnsigned 4 v).reverse m (4 * i) (by rw [hlen4]; omega) hl
    have h1 : storeF m i v = .ok a := h1
    obtain ⟨g1, g2, g3⟩ := storeF_ok (by omega) hl h1
    rw [h1, Res.ok_bind]
    refine ih (i + 1) a (by omega) (by omega) fun j h2 h3 => ?_
    rw [g3 j (by omega)]
    exact h j (by omega) (by omega)

/-- What is read of a block before its samples are converted. -/
theorem block_raw (ops : FloatOps F) (cv : Conv F (BitVec 64)) (hcv : ∀ v, cv.toT v = v) (zero : F) (rule : Rule)
    (hrule : RuleOk rule) (ns : Nat) (d : Disk) (nt N : Nat) (b : Chunk) (hb : ChunkOk ns d nt N b) :
    ∃ m p, readIn ops cv ns (.list b.ilst) b.ilst.length (some (.fill (4 * (b.ilst.length * ns)) 0#8))
        (some (Params.mk zero rule b.ilst.length)) 0 d = .ok (some m, some p) ∧ m.len = 4 * (b.ilst.length * ns) ∧
      RowsRead ops d ns (.list b.ilst) b.ilst.length 0 (Params.mk zero rule b.ilst.length) p ∧
      ∀ (i k s : Nat), b.ilst[i]? = some k → s < ns → sample m (i * ns + s) = native d ns k s := by
  have hsm := small_list hb.isz hb.ilt hb.inc
  have hinc := inc_of_lt hb.inc
  have hbytes := sample_bytes hb.isz hsm.cnt
  obtain ⟨t', p', r1, -, -, r2, r3⟩ := read_spec ops cv hcv ns (.list b.ilst) b.ilst.length
    (some (.fill (4 * (b.ilst.length * ns)) 0#8))
    (some (Params.mk zero rule b.ilst.length)) 0 d nt hsm (fun i j h1 h2 => Nat.le_of_lt (hinc i j h1 h2))
    (fun i hi => Nat.le_trans (taddr_le (hsm.lt i hi)) hb.dsz)
    (by
      rintro t h; cases h
      refine ⟨?_, hbytes⟩
      show 4 * (ns * b.ilst.length) ≤ 4 * (b.ilst.length * ns)
      rw [Nat.mul_comm ns])
    (by rintro p h; cases h; exact ⟨hrule.rd zero _, Nat.le_refl _⟩) (by simp)
  obtain ⟨p, rfl, hrows⟩ := r3 _ rfl
  obtain ⟨t1, rfl, hsamp⟩ := r2 _ rfl
  unfold readTraceT at r1
  obtain ⟨⟨t0, p0⟩, a1, a2⟩ := Params.bind_ok_inv r1
  obtain ⟨m, hm, hml⟩ := readIn_len a1
  simp only at a2
  obtain ⟨t2, a3, a4⟩ := Params.bind_ok_inv a2
  rw [Res.ok.injEq, Prod.mk.injEq] at a4
  obtain ⟨rfl, rfl⟩ := a4
  subst hm
  have hml' : m.len = 4 * (b.ilst.length * ns) := hml
  refine ⟨m, p, a1, hml', hrows, ?_⟩
  intro i k s hi hs
  have hin := (List.getElem?_eq_some_iff.1 hi).1
  have hmul : mul64 ns b.ilst.length = ns * b.ilst.length := mul64_eq (by
    rw [Nat.mul_comm]; omega)
  unfold onTrace at a3
  simp only [Bool.false_eq_true, if_false, hmul] at a3
  obtain ⟨t3, k1, k2⟩ := fromFile_spec (ns * b.ilst.length) 0 m (by rw [hml', Nat.mul_comm ns]; omega) (by omega)
  rw [k1, Res.ok_bind, Res.ok.injEq, Option.some.injEq] at a3
  subst a3
  have hx : i * ns + s < 0 + ns * b.ilst.length := by
    rw [Nat.zero_add, Nat.mul_comm ns]
    have : (i + 1) * ns ≤ b.ilst.length * ns := Nat.mul_le_mul_right _ hin
    rw [Nat.add_mul, Nat.one_mul] at this
    omega
  have hk : (Where.list b.ilst).trace i = k := by show b.ilst[i]?.getD 0 = k; rw [hi]; rfl
  have h := hsamp.samples i s hin hs
  rw [hk] at h
  obtain ⟨b0, b1, b2, b3⟩ := word_inj h
  have e := fun r hr => k2.inside (i * ns + s) r (Nat.zero_le _) hx hr
  rw [e 3 (by omega)] at b0
  rw [e 2 (by omega)] at b1
  rw [e 1 (by omega)] at b2
  have e0 := e 0 (by omega)
  rw [Nat.add_zero] at e0
  rw [e0] at b3
  unfold sample native
  exact congr (congr (congr (congrArg fromBE32 b3) b2) b1) b0

/-- A block of a file in either format, if it is written at all. -/
theorem block_either {queue : List BlockOp} {D : List Flt → Prop} {R : List Flt → List Flt → Prop} (ops : FloatOps F) (cv : Conv F (BitVec 64)) (hcv : ∀ v, cv.toT v = v) (zero : F) (rule : Rule)
    (hrule : RuleOk rule) (hconv : rule.cnt .float = 0 ∨ Convertible ops) (idx : List Nat → List Nat)
    (hidx : IsSortIndex idx) (ns : Nat) (d : Disk) (nt N : Nat) (b : Chunk) (hb : ChunkOk ns d nt N b) (ibm : Bool)
    (hq : QueueOk queue ns D R) (hD : ∀ k ∈ b.ilst, D (seen ibm d ns k)) (o : Disk) :
    (∀ o', runBlock queue ops cv zero rule ns idx d ibm b o = .ok o' → o.size ≤ o'.size ∧
      (∀ (i k k' : Nat), b.ilst[i]? = some k → b.olst[i]? = some k' →
        AgainBy (fun _ y => R (seen ibm d ns k) y) ops rule ns d k o' k') ∧
      ∀ x, (∀ k ∈ b.olst, ¬ (taddr ns k ≤ x ∧ x < taddr ns k + (240 + 4 * ns))) → o'.byte x = o.byte x) ∧
    ((ibm = true → ∀ k ∈ b.ilst, ∀ s, s < ns → Quiet (native d ns k s)) →
      ∃ o', runBlock queue ops cv zero rule ns idx d ibm b o = .ok o') := by
  cases ibm with
  | false =>
    obtain ⟨o1, e1, e2, e3, e4⟩ := block_specQ ops cv hcv zero rule hrule hconv idx hidx ns d nt N b hb hq hD o
    refine ⟨fun o' hok => ?_, fun _ => ⟨o1, e1⟩⟩
    rw [e1, Res.ok.injEq] at hok
    subst hok
    exact ⟨e2, fun i k k' h1 h2 => ⟨(e3 i k k' h1 h2).samples, (e3 i k k' h1 h2).header⟩, e4⟩
  | true =>
    have hsm := small_list hb.isz hb.ilt hb.inc
    have hbytes := sample_bytes hb.isz hsm.cnt
    obtain ⟨m, p, a1, hml, hrows, hnat⟩ := block_raw ops cv hcv zero rule hrule ns d nt N b hb
    have hmul : mul64 ns b.ilst.length = ns * b.ilst.length := mul64_eq (by
      rw [Nat.mul_comm]; omega)
    have hread : ∀ m', fromIBM m 0 (ns * b.ilst.length) = .ok m' → readTraceT ops cv true ns (.list b.ilst) b.ilst.length
        (some (.fill (4 * (b.ilst.length * ns)) 0#8)) (some (Params.mk zero rule b.ilst.length)) 0 d =
        .ok (some m', some p) := by
      intro m' hm'
      unfold readTraceT
      rw [a1, Res.ok_bind]
      simp only
      unfold onTrace
      simp only [if_true, hmul]
      rw [hm', Res.ok_bind, Res.ok_bind]
    have hgo : ∀ m', fromIBM m 0 (ns * b.ilst.length) = .ok m' → ∃ o1, runBlock queue ops cv zero rule ns idx d true b o = .ok o1 ∧
        o.size ≤ o1.size ∧ (∀ (i k k' : Nat), b.ilst[i]? = some k → b.olst[i]? = some k' →
          AgainBy (fun _ y => R (seen true d ns k) y) ops rule ns d k o1 k') ∧
        ∀ x, (∀ k ∈ b.olst, ¬ (taddr ns k ≤ x ∧ x < taddr ns k + (240 + 4 * ns))) → o1.byte x = o.byte x := by
      intro m' hm'
      obtain ⟨g1, g2, -⟩ := fromIBM_half _ _ _ _ (by rw [hml, Nat.mul_comm ns]; omega) (by omega) hm'
      exact block_gen ops cv zero rule hrule hconv idx hidx ns d nt N b hb true (fun k => seen true d ns k)
        (t := m') (p := p) (hread m' hm') (by rw [g1, hml]) (by
          intro i k hi
          have hin := (List.getElem?_eq_some_iff.1 hi).1
          show _ = halves ns
          unfold memTrace halves
          refine List.ext_getElem (by rw [List.length_map, List.length_range, List.length_replicate]) fun s h1 h2 => ?_
          rw [List.getElem_map, List.getElem_range, List.getElem_replicate]
          have hs : s < ns := by rw [List.length_replicate] at h2; exact h2
          refine congrArg Flt.mk (g2 _ (Nat.zero_le _) ?_)
          rw [Nat.zero_add, Nat.mul_comm ns]
          have : (i + 1) * ns ≤ b.ilst.length * ns := Nat.mul_le_mul_right _ hin
          rw [Nat.add_mul, Nat.one_mul] at this
          omega) hrows hq hD o
    constructor
    · intro o' hok
      have hok' := hok
      unfold runBlock readList at hok'
      simp only at hok'
      obtain ⟨q, c1, -⟩ := Params.bind_ok_inv hok'
      unfold readTraceT at c1
      rw [a1, Res.ok_bind] at c1
      simp only at c1
      obtain ⟨t3, d1, -⟩ := Params.bind_ok_inv c1
      unfold onTrace at d1
      simp only [if_true, hmul] at d1
      obtain ⟨m', d3, -⟩ := Params.bind_ok_inv d1
      obtain ⟨o1, e1, e2, e3, e4⟩ := hgo m' d3
      rw [e1, Res.ok.injEq] at hok
      subst hok
      exact ⟨e2, e3, e4⟩
    · intro hquiet
      obtain ⟨m', hm'⟩ := fromIBM_ok (ns * b.ilst.length) 0 m (by rw [hml, Nat.mul_comm ns]; omega) (by omega) (by
        intro j _ hj
        rw [Nat.zero_add] at hj
        have hns : 0 < ns := Nat.pos_of_ne_zero (by rintro rfl; omega)
        have hi : j / ns < b.ilst.length := Nat.div_lt_of_lt_mul hj
        have hs : j % ns < ns := Nat.mod_lt _ hns
        have := hnat (j / ns) _ (j % ns) (List.getElem?_eq_getElem hi) hs
        rw [Nat.mul_comm, Nat.div_add_mod] at this
        rw [this]
        exact hquiet rfl _ (List.getElem_mem _) _ hs)
      obtain ⟨o1, e1, -⟩ := hgo m' hm'
      exact ⟨o1, e1⟩

/-! ## All blocks -/

theorem Again.congr {ops : FloatOps F} {rule : Rule} {ns : Nat} {d o o' : Disk} {k k' : Nat}
    (hl : HdrLayout rule) (h : Again ops rule ns d k o k')
    (he : ∀ x, taddr ns k' ≤ x ∧ x < taddr ns k' + (240 + 4 * ns) → o'.byte x = o.byte x) :
    Again ops rule ns d k o' k' := by
  obtain ⟨p, row, h1, h2, h3, h4, h5, h6⟩ := h.header
  refine ⟨fun s hs => ?_, p, row, h1, h2, h3, h4, h5, Header.congr (by rw [h2]; exact hl) h6 ?_⟩
  · rw [dsamp_congr hs fun x hx => he x ⟨by omega, hx.2⟩]
    exact h.samples s hs
  · intro x hx
    refine he _ ⟨?_, ?_⟩ <;> (unfold taddr; omega)

theorem AgainBy.congr {R : List Flt → List Flt → Prop} {ops : FloatOps F} {rule : Rule} {ns : Nat} {d o o' : Disk} {k k' : Nat}
    (hl : HdrLayout rule) (h : AgainBy R ops rule ns d k o k')
    (he : ∀ x, taddr ns k' ≤ x ∧ x < taddr ns k' + (240 + 4 * ns) → o'.byte x = o.byte x) :
    AgainBy R ops rule ns d k o' k' := by
  obtain ⟨p, row, h1, h2, h3, h4, h5, h6⟩ := h.header
  refine ⟨?_, p, row, h1, h2, h3, h4, h5, Header.congr (by rw [h2]; exact hl) h6 ?_⟩
  · have ht : trace o' ns k' = trace o ns k' := by
      unfold trace
      refine List.map_congr_left fun s hs => ?_
      rw [dsamp_congr (List.mem_range.1 hs) fun x hx => he x ⟨by omega, hx.2⟩]
    rw [ht]
    exact h.samples
  · intro x hx
    refine he _ ⟨?_, ?_⟩ <;> (unfold taddr; omega)

theorem runBlocks_specQ {queue : List BlockOp} {D : List Flt → Prop} {R : List Flt → List Flt → Prop} (ops : FloatOps F) (cv : Conv F (BitVec 64)) (hcv : ∀ v, cv.toT v = v) (zero : F) (rule : Rule)
    (hrule : RuleOk rule) (hconv : rule.cnt .float = 0 ∨ Convertible ops) (idx : List Nat → List Nat)
    (hidx : IsSortIndex idx) (ns N : Nat) (hq : QueueOk queue ns D R) (fs : List Input)
    (order : List Chunk) :
    ∀ o, (∀ b ∈ order, ∃ f nt, fs[b.file]? = some f ∧ f.ibm = false ∧ ChunkOk ns f.disk nt N b ∧
        ∀ k ∈ b.ilst, D (trace f.disk ns k)) →
      (order.flatMap Chunk.olst).Nodup →
      ∃ o', runBlocks queue ops cv zero rule ns idx fs order o = .ok o' ∧ o.size ≤ o'.size ∧
        (∀ b ∈ order, ∀ f, fs[b.file]? = some f → ∀ (i k k' : Nat), b.ilst[i]? = some k → b.olst[i]? = some k' →
          AgainBy R ops rule ns f.disk k o' k') ∧
        ∀ x, (∀ k ∈ order.flatMap Chunk.olst, ¬ (taddr ns k ≤ x ∧ x < taddr ns k + (240 + 4 * ns))) →
          o'.byte x = o.byte x := by
  induction order with
  | nil => intro o _ _; exact ⟨o, rfl, Nat.le_refl _, by simp, fun _ _ => rfl⟩
  | cons b l ih =>
    intro o hb hn
    rw [List.flatMap_cons, List.nodup_append] at hn
    obtain ⟨f, nt, hf, hi, hok, hD⟩ := hb b (by simp)
    obtain ⟨o1, e1, e2, e3, e4⟩ := block_specQ ops cv hcv zero rule hrule hconv idx hidx ns f.disk nt N b hok hq hD o
    obtain ⟨o2, g1, g2, g3, g4⟩ := ih o1 (fun x hx => hb x (by simp [hx])) hn.2.1
    refine ⟨o2, ?_, Nat.le_trans e2 g2, ?_, ?_⟩
    · unfold runBlocks
      rw [hf]
      simp only
      rw [hi, e1, Res.ok_bind, g1]
    · intro b' hb' f' hf' i k k' hk hk'
      rcases List.mem_cons.1 hb' with rfl | hb'
      · rw [hf] at hf'; cases hf'
        refine (e3 i k k' hk hk').congr hrule.layout fun x hx => g4 x fun q hq hc => ?_
        have hne : k' ≠ q := fun he => hn.2.2 k' (List.mem_of_getElem? hk') q hq he
        exact apart (k := k') (k' := q) (a := 0) (c := 0) hx (Nat.le_refl _) (Nat.le_refl _) (fun he => absurd he hne) hc
      · exact g3 b' hb' f' hf' i k k' hk hk'
    · intro x hx
      rw [g4 x fun k hk => hx k (by rw [List.flatMap_cons]; exact List.mem_append.2 (Or.inr hk)),
        e4 x fun k hk => hx k (by rw [List.flatMap_cons]; exact List.mem_append.2 (Or.inl hk))]

theorem runBlocks_either {queue : List BlockOp} {D : List Flt → Prop} {R : List Flt → List Flt → Prop} (ops : FloatOps F) (cv : Conv F (BitVec 64)) (hcv : ∀ v, cv.toT v = v) (zero : F) (rule : Rule)
    (hrule : RuleOk rule) (hconv : rule.cnt .float = 0 ∨ Convertible ops) (idx : List Nat → List Nat)
    (hidx : IsSortIndex idx) (ns N : Nat) (hq : QueueOk queue ns D R) (fs : List Input)
    (order : List Chunk) :
    ∀ o o', (∀ b ∈ order, ∃ f nt, fs[b.file]? = some f ∧ ChunkOk ns f.disk nt N b ∧
        ∀ k ∈ b.ilst, D (seen f.ibm f.disk ns k)) →
      (order.flatMap Chunk.olst).Nodup → runBlocks queue ops cv zero rule ns idx fs order o = .ok o' →
        (∀ b ∈ order, ∀ f, fs[b.file]? = some f → ∀ (i k k' : Nat), b.ilst[i]? = some k → b.olst[i]? = some k' →
          AgainBy (fun _ y => R (seen f.ibm f.disk ns k) y) ops rule ns f.disk k o' k') ∧
        ∀ x, (∀ k ∈ order.flatMap Chunk.olst, ¬ (taddr ns k ≤ x ∧ x < taddr ns k + (240 + 4 * ns))) →
          o'.byte x = o.byte x := by
  induction order with
  | nil =>
    intro o o' _ _ h
    rw [show o' = o from by cases h; rfl]
    exact ⟨by simp, fun _ _ => rfl⟩
  | cons b l ih =>
    intro o o' hb hn hrun
    rw [List.flatMap_cons, List.nodup_append] at hn
    obtain ⟨f, nt, hf, hok, hD⟩ := hb b (by simp)
    unfold runBlocks at hrun
    rw [hf] at hrun
    obtain ⟨o1, e1, hrun⟩ := Params.bind_ok_inv hrun
    obtain ⟨e2, e3, e4⟩ := block_either ops cv hcv zero rule hrule hconv idx hidx ns f.disk nt N b hok f.ibm hq hD o |>.1 o1 e1
    obtain ⟨g3, g4⟩ := ih o1 o' (fun x hx => hb x (by simp [hx])) hn.2.1 hrun
    refine ⟨?_, ?_⟩
    · intro b' hb' f' hf' i k k' hk hk'
      rcases List.mem_cons.1 hb' with rfl | hb'
      · rw [hf] at hf'; cases hf'
        refine (e3 i k k' hk hk').congr hrule.layout fun x hx => g4 x fun q hq hc => ?_
        have hne : k' ≠ q := fun he => hn.2.2 k' (List.mem_of_getElem? hk') q hq he
        exact apart (k := k') (k' := q) (a := 0) (c := 0) hx (Nat.le_refl _) (Nat.le_refl _) (fun he => absurd he hne) hc
      · exact g3 b' hb' f' hf' i k k' hk hk'
    · intro x hx
      rw [g4 x fun k hk => hx k (by rw [List.flatMap_cons]; exact List.mem_append.2 (Or.inr hk)),
        e4 x fun k hk => hx k (by rw [List.flatMap_cons]; exact List.mem_append.2 (Or.inl hk))]

theorem runBlocks_ok {queue : List BlockOp} (ops : FloatOps F) (cv : Conv F (BitVec 64)) (zero : F) (rule : Rule) (ns : Nat)
    (idx : List Nat → List Nat) (fs : List Input) (order : List Chunk)
    (h : ∀ b ∈ order, ∃ f, fs[b.file]? = some f ∧ ∀ o, ∃ o', runBlock queue ops cv zero rule ns idx f.disk f.ibm b o = .ok o') :
    ∀ o, ∃ o', runBlocks queue ops cv zero rule ns idx fs order o = .ok o' := by
  induction order with
  | nil => intro o; exact ⟨o, rfl⟩
  | cons b l ih =>
    intro o
    obtain ⟨f, hf, h1⟩ := h b (by simp)
    obtain ⟨o1, e1⟩ := h1 o
    obtain ⟨o2, e2⟩ := ih (fun c hc => h c (by simp [hc])) o1
    refine ⟨o2, ?_⟩
    unfold runBlocks
    rw [hf]
    show (_ >>= _) = _
    rw [e1, Res.ok_bind, e2]

theorem blockList_nil {f max : Nat} {ilst olst : List Nat} {i : Nat} (h : ilst.length ≤ i) :
    blockList f max ilst olst i = [] := by
  unfold blockList; rw [dif_neg (by omega)]

theorem blockList_ne (f max : Nat) (ilst olst : List Nat) (i : Nat) :
    ∀ b ∈ blockList f max ilst olst i, 0 < b.ilst.length := by
  induction i using blockList.induct max ilst with
  | case1 i h ih =>
    intro b hb
    unfold blockList at hb
    rw [dif_pos h] at hb
    rcases List.mem_cons.1 hb with rfl | hb
    · dsimp only
      rw [List.length_take, List.length_drop]
      split <;> omega
    · exact ih b hb
  | case2 i h =>
    intro b hb
    unfold blockList at hb
    rw [dif_neg h] at hb
    cases hb

theorem blockList_spec (f max : Nat) (hm : 0 < max) (ilst olst : List Nat) (h : ilst.length = olst.length) (n : Nat) :
    ∀ i, ilst.length - i ≤ n →
      (blockList f max ilst olst i).length = ceil (ilst.length - i) max ∧
      (blockList f max ilst olst i).flatMap Chunk.olst = olst.drop i ∧
      (blockList f max ilst olst i).flatMap (fun b => b.ilst.zip b.olst) = (ilst.zip olst).drop i ∧
      ∀ b ∈ blockList f max ilst olst i, b.file = f ∧ b.ilst.length = b.olst.length ∧ b.ilst.Sublist ilst ∧
        b.olst.Sublist olst := by
  have hzl : (ilst.zip olst).length = ilst.length := by simp [h]
  have hend : ∀ i, ilst.length ≤ i → (blockList f max ilst olst i).length = ceil (ilst.length - i) max ∧
      (blockList f max ilst olst i).flatMap Chunk.olst = olst.drop i ∧
      (blockList f max ilst olst i).flatMap (fun b => b.ilst.zip b.olst) = (ilst.zip olst).drop i ∧
      ∀ b ∈ blockList f max ilst olst i, b.file = f ∧ b.ilst.length = b.olst.length ∧ b.ilst.Sublist ilst ∧
        b.olst.Sublist olst := by
    intro i hi
    rw [blockList_nil hi, show ilst.length - i = 0 by omega, List.drop_eq_nil_of_le (by omega),
      List.drop_eq_nil_of_le (by omega)]
    have := ceil_le 0 max hm
    refine ⟨by simp; omega, rfl, rfl, by simp⟩
  induction n with
  | zero => intro i hi; exact hend i (by omega)
  | succ n ih =>
    intro i hi
    by_cases hlt : i < ilst.length
    · unfold blockList
      rw [dif_pos ⟨hlt, hm⟩]
      obtain ⟨i1, i2, i3, i4⟩ := ih (i + max) (by omega)
      have hmin : (if i + max < ilst.length then max else ilst.length - i) = min max (ilst.length - i) := by
        split <;> omega
      simp only [hmin]
      generalize hk : min max (ilst.length - i) = k
      have hdrop : ∀ {α : Type} (l : List α), l.length = ilst.length → l.drop (i + max) = (l.drop i).drop k := by
        intro α l hl
        rw [List.drop_drop]
        rcases Nat.lt_or_ge max (ilst.length - i) with hc | hc
        · rw [show k = max by omega]
        · rw [List.drop_eq_nil_of_le (by omega), List.drop_eq_nil_of_le (by omega)]
      refine ⟨?_, ?_, ?_, ?_⟩
      · rw [List.length_cons, i1, ceil_pos (ilst.length - i) max hm (by omega),
          show ilst.length - i - max = ilst.length - (i + max) by omega]
      · rw [List.flatMap_cons, i2, hdrop olst h.symm]
        exact List.take_append_drop _ _
      · rw [List.flatMap_cons, i3, hdrop (ilst.zip olst) hzl]
        have : ((ilst.drop i).take k).zip ((olst.drop i).take k) = ((ilst.zip olst).drop i).take k := by
          simp only [List.zip, List.drop_zipWith, List.take_zipWith]
        simp only [this]
        exact List.take_append_drop _ _
      · intro b hb
        rcases List.mem_cons.1 hb with rfl | hb
        · refine ⟨rfl, ?_, (List.take_sublist _ _).trans (List.drop_sublist _ _),
            (List.take_sublist _ _).trans (List.drop_sublist _ _)⟩
          simp only [List.length_take, List.length_drop, h]
        · exact i4 b hb
    · exact hend i (by omega)

theorem mem_allBlocks {max P : Nat} {b : Chunk} : ∀ {k : Nat} {fs : List Input}, b ∈ allBlocks max P k fs ↔
    ∃ j f, fs[j]? = some f ∧ ∃ r, r < P ∧ b ∈ blocksOf max (k + j) f r := by
  intro k fs
  induction fs generalizing k with
  | nil => simp [allBlocks]
  | cons g fs ih =>
    unfold allBlocks
    rw [List.mem_append, ih]
    constructor
    · rintro (h | ⟨j, f, hf, r, hr, hb⟩)
      · obtain ⟨r, hr, hb⟩ := List.mem_flatMap.1 h
        exact ⟨0, g, rfl, r, List.mem_range.1 hr, hb⟩
      · exact ⟨j + 1, f, by simpa using hf, r, hr, by rw [show k + (j + 1) = k + 1 + j by omega]; exact hb⟩
    · rintro ⟨j, f, hf, r, hr, hb⟩
      cases j with
      | zero =>
        simp only [List.getElem?_cons_zero, Option.some.injEq] at hf
        subst hf
        exact Or.inl (List.mem_flatMap.2 ⟨r, List.mem_range.2 hr, hb⟩)
      | succ j =>
        rw [List.getElem?_cons_succ] at hf
        exact Or.inr ⟨j, f, hf, r, hr, by rw [show k + 1 + j = k + (j + 1) by omega]; exact hb⟩

theorem allBlocks_olst {max P : Nat} (hm : 0 < max) : ∀ (k : Nat) (fs : List Input),
    (∀ f ∈ fs, ∀ r, r < P → (f.ilst r).length = (f.olst r).length) →
    (allBlocks max P k fs).flatMap Chunk.olst = fs.flatMap fun f => (List.range P).flatMap f.olst := by
  intro k fs
  induction fs generalizing k with
  | nil => intro _; rfl
  | cons f fs ih =>
    intro h
    unfold allBlocks
    rw [List.flatMap_append, ih (k + 1) (fun g hg => h g (by simp [hg])), List.flatMap_cons, List.flatMap_assoc]
    congr 1
    refine List.flatMap_congr fun r hr => ?_
    have := (blockList_spec k max hm (f.ilst r) (f.olst r) (h f (by simp) r (List.mem_range.1 hr)) _ 0 (Nat.le_refl _)).2.1
    rw [List.drop_zero] at this
    exact this

/-! ## The writer -/

/-- Number of collective writes for a group. -/
def roundsOf (max P : Nat) (fs : List Input) : Nat := (fs.map fun f => ceil (biggestOf P f) max).sum

theorem le_biggest {P r : Nat} (hr : r < P) (f : Input) : (f.ilst r).length ≤ biggestOf P f :=
  (le_foldl_max _ 0).2 _ (List.mem_map.2 ⟨r, List.mem_range.2 hr, rfl⟩)

theorem biggest_lt {P c : Nat} (f : Input) (h : ∀ r, r < P → (f.ilst r).length ≤ c) : biggestOf P f ≤ c := by
  refine foldl_max_le _ _ _ (Nat.zero_le _) ?_
  intro x hx
  obtain ⟨r, hr, rfl⟩ := List.mem_map.1 hx
  exact h r (List.mem_range.1 hr)

theorem writesOf_spec {idx : List Nat → List Nat} (hidx : IsSortIndex idx) {max P r : Nat} (hm : 0 < max) (hr : r < P) :
    ∀ (k : Nat) (fs : List Input), (∀ f ∈ fs, ∀ r, r < P → (f.ilst r).length = (f.olst r).length) →
      (∀ f ∈ fs, biggestOf P f < 2 ^ 63) →
      (writesOf idx max P r k fs).length = roundsOf max P fs ∧
      (writesOf idx max P r k fs).flatten.Perm (fs.flatMap fun f => f.olst r) ∧
      ∀ l ∈ writesOf idx max P r k fs, l.Pairwise (· ≤ ·) := by
  intro k fs
  induction fs generalizing k with
  | nil => intro _ _; exact ⟨rfl, List.Perm.refl _, by simp [writesOf]⟩
  | cons f fs ih =>
    intro h hb
    obtain ⟨i1, i2, i3⟩ := ih (k + 1) (fun g hg => h g (by simp [hg])) (fun g hg => hb g (by simp [hg]))
    have hlen := h f (by simp) r hr
    obtain ⟨b1, b2, -, b4⟩ := blockList_spec k max hm (f.ilst r) (f.olst r) hlen _ 0 (Nat.le_refl _)
    rw [Nat.sub_zero] at b1
    rw [List.drop_zero] at b2
    have hbig := hb f (by simp)
    have hle := le_biggest hr f
    have c1 := ceil_le (biggestOf P f) max hm
    have c2 := ceil_mono max hle
    have hex : sub64 (add64 (biggestOf P f / max) (if 0 < biggestOf P f % max then 1 else 0))
        (add64 ((f.ilst r).length / max) (if 0 < (f.ilst r).length % max then 1 else 0))
        = ceil (biggestOf P f) max - ceil (f.ilst r).length max := by
      rw [add64_eq (by rw [ceil_eq _ max hm]; omega), add64_eq (by rw [ceil_eq _ max hm]; omega), ceil_eq _ max hm,
        ceil_eq _ max hm, sub64_eq (a := ceil (biggestOf P f) max) (b := ceil (f.ilst r).length max) (by omega) (by omega)]
    unfold writesOf
    simp only [hex]
    refine ⟨?_, ?_, ?_⟩
    · rw [List.length_append, List.length_append, List.length_map, List.length_replicate, i1]
      unfold blocksOf
      rw [b1]
      unfold roundsOf
      rw [List.map_cons, List.sum_cons]
      omega
    · rw [List.flatten_append, List.flatMap_cons]
      refine List.Perm.append ?_ i2
      rw [List.flatten_append]
      have hrep : (List.replicate (ceil (biggestOf P f) max - ceil (f.ilst r).length max) ([] : List Nat)).flatten = [] := by
        simp
      rw [hrep, List.append_nil, ← List.flatMap_def]
      refine (List.Perm.flatMap_left _ (fun b _ => placesOf_perm hidx b)).trans ?_
      unfold blocksOf
      have : (blockList k max (f.ilst r) (f.olst r) 0).flatMap (fun b => b.olst) = f.olst r := b2
      rw [this]
    · intro l hl
      rcases List.mem_append.1 hl with hl | hl
      · rcases List.mem_append.1 hl with hl | hl
        · obtain ⟨b, -, rfl⟩ := List.mem_map.1 hl
          exact placesOf_le hidx b
        · rw [List.eq_of_mem_replicate hl]; exact List.Pairwise.nil
      · exact i3 l hl

/-- The calls of all processes on the writer. -/
def callsOf (idx : List Nat → List Nat) (max P ns : Nat) (inc : ℚ) (msg : List Nat) (fs : List Input) : List Files.Step :=
  [.ns ns, .inc inc, .text msg] ++
    (List.range (roundsOf max P fs)).map fun c => .list fun r => (writesOf idx max P r 0 fs)[c]?.getD []

theorem range_getD {α : Type} (l : List (List α)) : (List.range l.length).map (fun c => l[c]?.getD []) = l := by
  apply List.ext_getElem
  · simp
  · intro n h1 h2; simp [h2]

theorem foldl_act (r : Nat) (g : Nat → Nat → List Nat) (cs : List Nat) : ∀ w : W,
    (cs.map fun c => Files.Step.list fun r => g r c).foldl (Files.Step.act r) w = (cs.map (g r)).foldl W.writeList w := by
  induction cs with
  | nil => intro w; rfl
  | cons c cs ih => intro w; exact ih _

theorem writerOf_eq {idx : List Nat → List Nat} {max P ns : Nat} {inc : ℚ} {msg : List Nat} {fs : List Input} {r : Nat}
    (h : (writesOf idx max P r 0 fs).length = roundsOf max P fs) :
    writerOf ns inc msg (writesOf idx max P r 0 fs) = runW1 r (callsOf idx max P ns inc msg fs) := by
  unfold writerOf runW1 callsOf
  rw [List.foldl_append, foldl_act r (fun r c => (writesOf idx max P r 0 fs)[c]?.getD []), ← h, range_getD]
  rfl

theorem foldl_err (l : List (List Nat)) : ∀ w : W, w.err = false → w.nsSet = true → (l.foldl W.writeList w).err = false := by
  induction l with
  | nil => intro w h _; exact h
  | cons a l ih =>
    intro w h1 h2
    exact ih _ (by show (w.err || !w.nsSet) = false; rw [h1, h2]; rfl) h2

theorem last_list {α : Type} (sel : Files.Step → Option α) (hsel : ∀ f, sel (.list f) = none) (cs : List Nat)
    (g : Nat → Nat → List Nat) (h : List Files.Step) :
    last? sel (h ++ cs.map fun c => Files.Step.list (g c)) = last? sel h := by
  unfold last?
  rw [List.filterMap_append]
  have : (cs.map fun c => Files.Step.list (g c)).filterMap sel = [] := by
    rw [List.filterMap_eq_nil_iff]
    intro x hx
    obtain ⟨c, -, rfl⟩ := List.mem_map.1 hx
    exact hsel _
  rw [this, List.append_nil]

end Verif.Flow
