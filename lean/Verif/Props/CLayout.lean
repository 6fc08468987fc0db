import Verif.Util.CLayout
import Verif.Props.File

/-!
# C117: header layouts made through the C interface

The claim: a program that makes a layout of its own with the calls of the C interface, sets values and writes them finds each value in
the file at the bytes it named, and a program that makes a layout with the same item at the same bytes, whatever else is in it, reads
the value that was set last; samples and other traces keep their bytes.
-/

namespace Verif.CLayout
open Verif.Rules Verif.Params Verif.Files Verif.Layout Verif.Endian

/-- What a layout begins with: the two numbers of a trace, and the items asked for at their places in the standard. -/
def Start.holds : Start → Nat → Option Val
  | .plain defaults, m =>
    if m = 1 ∨ m = 2 then some (.index, 0, 0)
    else if defaults = true ∧ (20 ≤ m ∧ m ≤ 27 ∨ m = 14 ∨ m = 5) then documented m else none
  | .list ms, m => if m = 1 ∨ m = 2 then some (.index, 0, 0) else if m ∈ ms then documented m else none

/-- What an item is after a call: of the kind and at the place named last. -/
def Call.effect (m : Nat) (v : Option Val) : Call → Option Val
  | .addLong m' loc => if m' = m then some (.long, loc, 0) else v
  | .addShort m' loc => if m' = m then some (.short, loc, 0) else v
  | .addFloat m' loc scal => if m' = m then some (.float, loc, scal) else v
  | .addIndex m' => if m' = m then some (.index, 0, 0) else v
  | .addCopy => if m = COPY then v.or (some (.copy, 0, 0)) else v
  | .rmRule m' => if m' = m then none else v
  | .addMeta m' => if m' = m then v.or (documented m) else v

/-- What an item is after the calls. -/
def planned (s : Start) (cs : List Call) (m : Nat) : Option Val := cs.foldl (Call.effect m) (s.holds m)

/-- The calls do not use the name of the copy of the header, the fields are in the header, and no two meet but for scalars of
coordinates, which may be shared. -/
structure Sound (s : Start) (cs : List Call) : Prop where
  keys : ∀ c ∈ cs, match c with
    | .addLong m _ => m ≠ COPY | .addShort m _ => m ≠ COPY | .addFloat m _ _ => m ≠ COPY | .addIndex m => m ≠ COPY | _ => True
  fits : ∀ m k a b, planned s cs m = some (k, a, b) → Valued k → 1 ≤ a ∧ a + width k ≤ 241
  sfits : ∀ m a b, planned s cs m = some (.float, a, b) → 1 ≤ b ∧ b + 2 ≤ 241
  vv : ∀ m k a b m' k' a' b', planned s cs m = some (k, a, b) → planned s cs m' = some (k', a', b') → m ≠ m' → Valued k → Valued k' →
    a + width k ≤ a' ∨ a' + width k' ≤ a
  vs : ∀ m k a b m' a' b', planned s cs m = some (k, a, b) → planned s cs m' = some (.float, a', b') → Valued k →
    a + width k ≤ b' ∨ b' + 2 ≤ a
  ss : ∀ m a b m' a' b', planned s cs m = some (.float, a, b) → planned s cs m' = some (.float, a', b') →
    b = b' ∨ b + 2 ≤ b' ∨ b' + 2 ≤ b

/-- The values that an item holds. -/
def Takes : Option Val → Int → Prop
  | some (.long, _), v => -2 ^ 31 ≤ v ∧ v < 2 ^ 31
  | some (.short, _), v => -2 ^ 15 ≤ v ∧ v < 2 ^ 15
  | _, _ => False

/-- Whole numbers are kept as such. -/
structure Whole {F : Type} (cv : Conv F Int) : Prop where
  toI : ∀ v, cv.toI v = BitVec.ofInt 64 v
  toS : ∀ v, cv.toS v = BitVec.ofInt 16 v
  ofI : ∀ v, cv.ofI v = v.toInt
  ofS : ∀ v, cv.ofS v = v.toInt

/-- The value set last for an item of a row. -/
def Lastly (l : List Assign) (row m : Nat) (v : Int) : Prop :=
  ∃ l₁ l₂, l = l₁ ++ ⟨row, m, v⟩ :: l₂ ∧ ∀ a ∈ l₂, ¬ (a.row = row ∧ a.item = m)

theorem start_spec (s : Start) : ∃ r, s.rule = .ok r ∧ Reachable r ∧ r.fullextent = true ∧ ∀ m, abs r m = s.holds m := by
  cases s with
  | plain d =>
    obtain ⟨r, h1, h2, h3⟩ := C10_ctor [] true d false
    obtain ⟨r', g1, -, g3⟩ := ctor_inv [] true d false
    obtain rfl : r' = r := by rw [h1] at g1; exact (Res.ok.inj g1).symm
    refine ⟨r', h1, h2, g3, fun m => ?_⟩
    rw [h3]
    simp [Start.holds]
  | list ms =>
    obtain ⟨r, h1, h2, h3⟩ := C10_ctor ms true false false
    obtain ⟨r', g1, -, g3⟩ := ctor_inv ms true false false
    obtain rfl : r' = r := by rw [h1] at g1; exact (Res.ok.inj g1).symm
    refine ⟨r', h1, h2, g3, fun m => ?_⟩
    rw [h3]
    simp [Start.holds]

theorem run_full (ops : List Op) : ∀ (r r' : Rule) (os : List Out), Reachable r → (∀ op ∈ ops, ∀ r, Allowed r op) →
    run r ops = .ok (r', os) → r'.fullextent = r.fullextent := by
  induction ops with
  | nil => intro r r' os _ _ h; simp only [run, Res.ok.injEq, Prod.mk.injEq] at h; rw [h.1]
  | cons op ops ih =>
    intro r r' os hr ha h
    obtain ⟨r1, o, h1, -, -, -, h5⟩ := step_spec hr.inv op (ha op (by simp) r)
    unfold run at h
    rw [h1, Res.ok_bind] at h
    obtain ⟨⟨r2, os2⟩, h2, h3⟩ := bind_ok_inv h
    simp only [Res.ok.injEq, Prod.mk.injEq] at h3
    rw [← h3.1, ← h5]
    exact ih r1 r2 os2 (Reach.step hr (ha op (by simp) r) h1 trivial) (fun op' h' => ha op' (by simp [h'])) h2

theorem layout_spec {s : Start} {cs : List Call} (h : Sound s cs) :
    ∃ r, layout s cs = .ok r ∧ Reachable r ∧ r.fullextent = true ∧ ∀ m, abs r m = planned s cs m := by
  obtain ⟨r, h1, h2, h3, h4⟩ := start_spec s
  have hk := h.keys
  obtain ⟨r', os, g1, g2, g3⟩ := C10_history_partial (cs.map Call.op) r h2 (by
    intro op hop
    obtain ⟨c, hc, rfl⟩ := List.mem_map.1 hop
    have := hk c hc
    cases c <;> simp_all [Call.op])
  refine ⟨r', by unfold layout; rw [h1, Res.ok_bind, g1]; rfl, g2, ?_, fun m => ?_⟩
  · rw [run_full _ _ _ _ h2 (fun op hop r => by
      obtain ⟨c, hc, rfl⟩ := List.mem_map.1 hop
      have := hk c hc
      cases c <;> simp_all [Call.op, Allowed]) g1, h3]
  · rw [g3, h4, List.foldl_map]
    unfold planned
    congr 1
    funext v c
    cases c <;> simp only [Call.op, lastEffect, Call.effect, known_documented]

theorem layout_hdr {s : Start} {cs : List Call} (h : Sound s cs) {r : Rule} (hr : Reachable r)
    (hm : ∀ m, abs r m = planned s cs m) : HdrLayout r := by
  have key : ∀ m e, (m, some e) ∈ r.map → planned s cs m = some (e.kind, e.loc, e.scalLoc) := fun m e hme => by
    rw [← hm]
    unfold abs
    rw [find_of_mem hr.inv.keys hme]
    rfl
  have keyf : ∀ m e, (m, some e) ∈ r.map → e.kind = .float → planned s cs m = some (.float, e.loc, e.scalLoc) := fun m e hme hk => by
    rw [← hk]; exact key m e hme
  exact ⟨fun m e h1 h2 => h.fits _ _ _ _ (key m e h1) h2, fun m e h1 h2 => h.sfits _ _ _ (keyf m e h1 h2),
    fun m e m' e' h1 h2 hne v1 v2 => h.vv _ _ _ _ _ _ _ _ (key m e h1) (key m' e' h2) hne v1 v2,
    fun m e m' e' h1 h2 v1 v2 => h.vs _ _ _ _ _ _ _ (key m e h1) (keyf m' e' h2 v2) v1,
    fun m e m' e' h1 h2 v1 v2 => h.ss _ _ _ _ _ _ (keyf m e h1 v1) (keyf m' e' h2 v2)⟩

/-- The parameters on their way: coordinates are as made, and integers fit. -/
structure Good {F : Type} (zero : F) (r : Rule) (sz : Nat) (p : Param F) : Prop where
  wf : WF p
  rule : p.rule = r
  sz : p.sz = sz
  f : ∀ x, p.f.val x = zero
  i : ∀ x, -2 ^ 31 ≤ (p.i.val x).toInt ∧ (p.i.val x).toInt < 2 ^ 31

theorem toInt64 {v : Int} (h : -2 ^ 31 ≤ v ∧ v < 2 ^ 31) : (BitVec.ofInt 64 v).toInt = v := by
  rw [BitVec.toInt_ofInt]
  exact Int.bmod_eq_of_le (by simp at h ⊢; omega) (by simp at h ⊢; omega)

theorem toInt16 {v : Int} (h : -2 ^ 15 ≤ v ∧ v < 2 ^ 15) : (BitVec.ofInt 16 v).toInt = v := by
  rw [BitVec.toInt_ofInt]
  exact Int.bmod_eq_of_le (by simp at h ⊢; omega) (by simp at h ⊢; omega)

theorem set_good {F : Type} {cv : Conv F Int} (hcv : Whole cv) {zero : F} {r : Rule} {sz : Nat} {p : Param F} (hp : Good zero r sz p)
    (a : Assign) (ha : a.row < sz) (hv : Takes (abs r a.item) a.value) :
    ∃ p', setPrm cv a.row a.item a.value p = .ok p' ∧ Good zero r sz p' ∧ getPrm cv a.row a.item p' = .ok a.value ∧
      ∀ i m, i < sz → abs r m ≠ none → ¬ (i = a.row ∧ m = a.item) → getPrm cv i m p' = getPrm cv i m p := by
  cases hab : abs r a.item with
  | none => rw [hab] at hv; exact hv.elim
  | some w =>
    obtain ⟨p', h1, h2, h3, h4, h5, h6⟩ := C11_set_get cv p hp.wf a.row a.item a.value w (by rw [hp.sz]; exact ha)
      (by rw [hp.rule]; exact hab)
    have hvia : viaSlot cv w.1 a.value = a.value := by
      rw [hab] at hv
      obtain ⟨k, l⟩ := w
      cases k with
      | long => show cv.ofI (cv.toI _) = _; rw [hcv.toI, hcv.ofI]; exact toInt64 hv
      | short => show cv.ofS (cv.toS _) = _; rw [hcv.toS, hcv.ofS]; exact toInt16 hv
      | float => exact hv.elim
      | index => exact hv.elim
      | copy => exact hv.elim
    rw [hvia] at h5
    refine ⟨p', h1, ⟨h2, h3.trans hp.rule, h4.trans hp.sz, ?_, ?_⟩, h5, fun i m hi hm hne =>
      h6 Int cv i m (by rw [hp.sz]; exact hi) (by rw [hp.rule]; exact hm) hne⟩
    all_goals
      obtain ⟨e, he, hev⟩ := entry_of_abs (r := p.rule) (by rw [hp.rule]; exact hab)
      have hg := getEntry_of_mem hp.wf.inv he
      unfold setPrm at h1
      rw [hg] at h1
      subst hev
      rw [hab] at hv
      dsimp only at h1
      cases hk : e.kind <;> rw [hk] at h1 <;> simp only [entryVal, hk, Takes] at hv
      all_goals
        obtain ⟨x, hx, h7⟩ := bind_ok_inv h1
        obtain rfl := Res.ok.inj h7
    · exact hp.f
    · exact hp.f
    · intro y
      show -2 ^ 31 ≤ (x.val y).toInt ∧ (x.val y).toInt < 2 ^ 31
      unfold Arr.set at hx
      split at hx
      · obtain rfl := Res.ok.inj hx
        dsimp only
        split
        · rw [hcv.toI, toInt64 hv]; exact hv
        · exact hp.i y
      · cases hx
    · exact hp.i

theorem setAll_good {F : Type} {cv : Conv F Int} (hcv : Whole cv) {zero : F} {r : Rule} {sz : Nat} (l : List Assign) : ∀ {p : Param F},
    Good zero r sz p → (∀ a ∈ l, a.row < sz ∧ Takes (abs r a.item) a.value) →
    ∃ p', setAll cv l p = .ok p' ∧ Good zero r sz p' ∧ (∀ i m v, Lastly l i m v → getPrm cv i m p' = .ok v) ∧
      ∀ i m, i < sz → abs r m ≠ none → (∀ a ∈ l, ¬ (a.row = i ∧ a.item = m)) → getPrm cv i m p' = getPrm cv i m p := by
  induction l with
  | nil => intro p hp _; exact ⟨p, rfl, hp, fun i m v h => by obtain ⟨l₁, l₂, h, -⟩ := h; simp at h, fun _ _ _ _ _ => rfl⟩
  | cons a l ih =>
    intro p hp hl
    obtain ⟨p1, h1, h2, h3, h4⟩ := set_good hcv hp a (hl a (by simp)).1 (hl a (by simp)).2
    obtain ⟨p2, g1, g2, g3, g4⟩ := ih h2 fun b hb => hl b (by simp [hb])
    refine ⟨p2, by unfold setAll; rw [h1, Res.ok_bind, g1], g2, fun i m v h => ?_, fun i m hi hm hne => ?_⟩
    · obtain ⟨l₁, l₂, e, hn⟩ := h
      cases l₁ with
      | nil =>
        simp only [List.nil_append, List.cons.injEq] at e
        obtain ⟨rfl, rfl⟩ := e
        have ha := hl ⟨i, m, v⟩ (by simp)
        rw [g4 i m ha.1 (fun e => by have := ha.2; simp only [e, Takes] at this) hn]
        exact h3
      | cons b l₁ =>
        simp only [List.cons_append, List.cons.injEq] at e
        exact g3 i m v ⟨l₁, l₂, e.2, hn⟩
    · rw [g4 i m hi hm fun b hb => hne b (by simp [hb]), h4 i m hi hm fun h => hne a (by simp) ⟨h.1.symm, h.2.symm⟩]

theorem trace_start {N offset sz : Nat} (hN : N < 2 ^ 63) (ho : offset + sz ≤ N) {i : Nat} (hi : i < sz) :
    (Where.start offset).trace i = offset + i := by
  show add64 offset i = offset + i
  unfold add64
  exact Nat.mod_eq_of_lt (by omega)

theorem num_small {ns N : Nat} (hN : 3600 + N * (240 + 4 * ns) < 2 ^ 63) : N < 2 ^ 63 := by
  have : N * 1 ≤ N * (240 + 4 * ns) := Nat.mul_le_mul_left N (by omega)
  omega

theorem small_start {ns N offset sz : Nat} (hN : 3600 + N * (240 + 4 * ns) < 2 ^ 63) (ho : offset + sz ≤ N) :
    Small ns (.start offset) sz N := by
  refine ⟨by unfold taddr; exact hN, fun i hi => ?_, fun o h _ => ?_, fun l h => (by cases h), by omega⟩
  · rw [trace_start (num_small hN) ho hi]; omega
  · cases h; exact ho

theorem write_ready {F : Type} (ops : FloatOps F) (cv : Conv F Int) (hcv : Whole cv) (zero : F) (hz : ∃ s, ops.findScalar zero = .ok s)
    (hz' : ∀ s, ∃ n, ops.encode zero s = .ok n) (ns N : Nat) (hN : 3600 + N * (240 + 4 * ns) < 2 ^ 63) (s : Start) (cs : List Call)
    (hw : Sound s cs) (l : List Assign) (offset sz : Nat) (ho : offset + sz ≤ N)
    (hl : ∀ a ∈ l, a.row < sz ∧ Takes (planned s cs a.item) a.value) :
    ∃ r p, layout s cs = .ok r ∧ Reachable r ∧ (∀ m, abs r m = planned s cs m) ∧ setAll cv l (mk zero r sz) = .ok p ∧ Good zero r sz p ∧
      (∀ i m v, Lastly l i m v → getPrm cv i m p = .ok v) ∧ WOp.Ok ops ns N ⟨.start offset, sz, none, some p, 0⟩ := by
  obtain ⟨r, r1, r2, r3, r4⟩ := layout_spec hw
  obtain ⟨p, p1, p2, p3, -⟩ := setAll_good hcv (r := r) (sz := sz) (zero := zero) l (p := mk zero r sz)
    ⟨mk_wf zero r2.inv sz, rfl, rfl, fun _ => rfl, fun _ => by show -2 ^ 31 ≤ (0#64).toInt ∧ (0#64).toInt < 2 ^ 31; decide⟩
    (fun a ha => by rw [r4]; exact hl a ha)
  refine ⟨r, p, r1, r2, r4, p1, p2, p3, small_start hN ho, fun i j hij hj => ?_, fun t h => (by cases h), fun p' h => ?_, Or.inr (by simp)⟩
  · have hj : j < sz := hj
    show (Where.start offset).trace i < (Where.start offset).trace j
    rw [trace_start (num_small hN) ho hj, trace_start (num_small hN) ho (by omega : i < sz)]; omega
  · obtain rfl := Option.some.inj h
    refine ⟨⟨p2.wf, by rw [p2.rule]; exact layout_hdr hw r2 r4, by rw [p2.rule]; exact r3,
      by rw [p2.rule]; exact reach_start r2 r3, fun x _ => by rw [p2.f]; exact hz, fun x _ => by rw [p2.f]; exact hz'⟩, ?_⟩
    show sz + 0 ≤ p.sz
    rw [p2.sz]
    omega

/-- **C117** (part): for every layout without overlaps, made with the C interface, and values that fit. Every value set last for an item is
found, as a big-endian number, at the bytes named; all bytes outside the headers written are kept; and a program with another layout
that has the item at the same place reads the value. Missing: coordinates that are set (C15), copies of headers, and names and places
that overlap. -/
theorem C117_layout_partial {F : Type} (ops : FloatOps F) (cv : Conv F Int) (hcv : Whole cv) (cvt : Conv F (BitVec 64))
    (hcvt : ∀ v, cvt.toT v = v) (zero : F) (hz : ∃ s, ops.findScalar zero = .ok s) (hz' : ∀ s, ∃ n, ops.encode zero s = .ok n)
    (ns N : Nat) (hN : 3600 + N * (240 + 4 * ns) < 2 ^ 63) (s : Start) (cs : List Call) (hw : Sound s cs) (l : List Assign)
    (offset sz : Nat) (ho : offset + sz ≤ N) (hl : ∀ a ∈ l, a.row < sz ∧ Takes (planned s cs a.item) a.value) (d : Disk) :
    ∃ d', writeValues ops cv zero ns s cs l offset sz d = .ok d' ∧ d.size ≤ d'.size ∧
      (∀ x, (∀ i, i < sz → ¬ (3600 + (offset + i) * (240 + 4 * ns) ≤ x ∧ x < 3600 + (offset + i) * (240 + 4 * ns) + 240)) →
        d'.byte x = d.byte x) ∧
      (∀ i m v k a b, Lastly l i m v → planned s cs m = some (k, a, b) →
        ∀ at', at' = 3600 + (offset + i) * (240 + 4 * ns) + (a - 1) →
          (k = .long → (fromBE32 (d'.byte at') (d'.byte (at' + 1)) (d'.byte (at' + 2)) (d'.byte (at' + 3))).toInt = v) ∧
          (k = .short → (fromBE16 (d'.byte at') (d'.byte (at' + 1))).toInt = v)) ∧
      ∀ s' cs' offset' sz' nt, Sound s' cs' → planned s' cs' 1 = some (.index, 0, 0) → offset' + sz' ≤ nt → nt ≤ N →
        3600 + nt * (240 + 4 * ns) ≤ d'.size →
        ∃ q, readValues ops cvt zero ns nt s' cs' offset' sz' d' = .ok (some q) ∧
          ∀ i j m v, Lastly l i m v → j < sz' → offset + i = offset' + j → planned s' cs' m = planned s cs m →
            getPrm cv j m q = .ok v := by
  obtain ⟨r, p, r1, r2, r4, p1, p2, p3, hok'⟩ := write_ready ops cv hcv zero hz hz' ns N hN s cs hw l offset sz ho hl
  have hlast : ∀ {i m v}, Lastly l i m v → i < sz ∧ Takes (planned s cs m) v := by
    rintro i m v ⟨l₁, l₂, rfl, -⟩
    exact hl ⟨i, m, v⟩ (by simp)
  obtain ⟨o, ho'⟩ : ∃ o : WOp F, o = ⟨.start offset, sz, none, some p, 0⟩ := ⟨_, rfl⟩
  have hok : o.Ok ops ns N := by subst ho'; exact hok'
  obtain ⟨d', e1, -, e3, e4, e5, -, -⟩ := write_spec ops ns o.w o.sz o.trc o.prm o.skip d N hok.small hok.inc hok.trc hok.prm hok.any
  obtain ⟨d2, k1, k2⟩ := C20_last_write_partial ops cvt hcvt ns N d [] [] o (by simpa using hok)
  obtain rfl : d2 = d' := by
    rw [List.nil_append] at k1
    unfold runW at k1
    rw [e1, Res.ok_bind] at k1
    exact (Res.ok.inj k1).symm
  subst ho'
  refine ⟨d2, ?_, e5, fun x hx => ?_, fun i m v k a b hlv hm at' hat => ?_, ?_⟩
  · unfold writeValues
    rw [r1, Res.ok_bind, p1, Res.ok_bind]
    dsimp only at e1
    rw [e1]
    rfl
  · refine e4 x fun i hi => ⟨fun _ => ?_, fun h => absurd rfl h⟩
    have := hx i hi
    rw [show (Where.start offset).trace i = offset + i from trace_start (num_small hN) ho hi]
    exact this
  · obtain ⟨hi, ht⟩ := hlast hlv
    have hh := e3 p rfl i hi
    rw [show (Where.start offset).trace i = offset + i from trace_start (num_small hN) ho hi] at hh
    obtain ⟨e, he, hev⟩ := entry_of_abs (r := p.rule) (m := m) (v := (k, a, b)) (by rw [p2.rule, r4]; exact hm)
    have hev' := hev
    unfold entryVal at hev'
    injection hev' with hek hev'
    injection hev' with hea heb
    obtain ⟨i1, i2, -⟩ := hh.items m e he
    have hg := p3 i m v hlv
    unfold getPrm at hg
    rw [getEntry_of_mem p2.wf.inv he] at hg
    dsimp only at hg
    rw [hm] at ht
    subst hek hea hat
    constructor
    · intro hk
      rw [hk] at hg ht
      obtain ⟨y, hy, hg⟩ := bind_ok_inv hg
      have hy' : y = p.i.val (p.rule.cnt .long * i + e.num) := by
        unfold Arr.get at hy
        split at hy
        · exact (Res.ok.inj hy).symm
        · cases hy
      have hv : y.toInt = v := by rw [← hcv.ofI]; exact Res.ok.inj hg
      have := i2 hk
      rw [show (i + 0) * p.rule.cnt .long + e.num = p.rule.cnt .long * i + e.num by rw [Nat.add_zero, Nat.mul_comm], ← hy'] at this
      unfold val32 at this
      rw [Nat.zero_add] at this
      have hse := setWidth_signExtend y (by rw [hv]; exact ht)
      rw [← this] at hse
      have h2 := congrArg BitVec.toInt hse
      rw [BitVec.toInt_signExtend_of_le (by omega), hv] at h2
      exact h2
    · intro hk
      rw [hk] at hg ht
      obtain ⟨y, hy, hg⟩ := bind_ok_inv hg
      have hy' : y = p.s.val (p.rule.cnt .short * i + e.num) := by
        unfold Arr.get at hy
        split at hy
        · exact (Res.ok.inj hy).symm
        · cases hy
      have hv : y.toInt = v := by rw [← hcv.ofS]; exact Res.ok.inj hg
      have := i1 hk
      rw [show (i + 0) * p.rule.cnt .short + e.num = p.rule.cnt .short * i + e.num by rw [Nat.add_zero, Nat.mul_comm], ← hy'] at this
      unfold val16 at this
      rw [Nat.zero_add] at this
      have h2 := congrArg BitVec.toInt this
      rw [hv] at h2
      exact h2
  · intro s' cs' offset' sz' nt hs' hltn ho2 hnt hsize
    obtain ⟨r', q1, q2, q3, q4⟩ := layout_spec hs'
    have hN' := num_small hN
    have hrok : ROk ns N (.start offset') sz' none (some (mk zero r' sz')) 0 d2 := by
      refine ⟨small_start hN (by omega), fun i j hij hj => ?_, fun i hi => ?_, fun t h => (by cases h), fun p' h => ?_, Or.inr (by simp)⟩
      · rw [trace_start (N := N) hN' (by omega) hj, trace_start (N := N) hN' (by omega) (by omega : i < sz')]; omega
      · rw [trace_start (N := N) hN' (by omega) hi]
        have : (offset' + i + 1) * (240 + 4 * ns) ≤ nt * (240 + 4 * ns) := Nat.mul_le_mul_right _ (by omega)
        omega
      · obtain rfl := Option.some.inj h
        obtain ⟨e, he, hev⟩ := entry_of_abs (r := r') (m := ltn) (v := (.index, 0, 0)) (by rw [q4]; exact hltn)
        refine ⟨⟨mk_wf zero q2.inv sz', layout_hdr hs' q2 q4, q3, reach_start q2 q3, e, he, ?_⟩, by show sz' + 0 ≤ sz'; omega⟩
        unfold entryVal at hev
        injection hev
    obtain ⟨t', p', f1, f2⟩ := k2 _ _ _ _ _ hrok
    have hq : ∃ q, p' = some q := by
      obtain ⟨t', p', g1, -, -, -, g5⟩ := read_spec ops cvt hcvt ns _ _ none (some (mk zero r' sz')) 0 d2 N hrok.small hrok.ndec
        hrok.blocks hrok.trcOk hrok.prmOk hrok.any
      rw [g1] at f1
      obtain ⟨q, hq, -⟩ := g5 _ rfl
      have := Res.ok.inj f1
      injection this with _ h2
      exact ⟨q, h2 ▸ hq⟩
    obtain ⟨q, rfl⟩ := hq
    refine ⟨q, ?_, fun i j m v hlv hj hij hm => ?_⟩
    · unfold readValues readTrace
      rw [q1, Res.ok_bind]
      have hcl : clamp nt offset' sz' = sz' := by
        unfold clamp add64
        rw [Nat.mod_eq_of_lt (by omega)]
        split
        · rfl
        · rw [if_neg (by omega)]
      rw [hcl, f1]
      rfl
    · obtain ⟨hi, ht⟩ := hlast hlv
      obtain ⟨-, g⟩ := f2 i j hi hj (by
        show (Where.start offset).trace i = (Where.start offset').trace j
        rw [trace_start hN' ho hi, trace_start (N := N) hN' (by omega) hj, hij])
      obtain ⟨q1', hq1, g1, -⟩ := g p _ rfl rfl (by simp)
      obtain rfl := Option.some.inj hq1
      cases hpl : planned s cs m with
      | none => rw [hpl] at ht; exact ht.elim
      | some w =>
        obtain ⟨k, w⟩ := w
        obtain ⟨a1, a2⟩ := g1 m (k, w) (by rw [p2.rule, r4, hpl]) (by show abs r' m = _; rw [q4, hm, hpl])
        rw [← p3 i m v hlv]
        rw [hpl] at ht
        cases k with
        | long => exact a2 Int cv rfl fun x _ => p2.i x
        | short => exact a1 Int cv rfl
        | float => exact ht.elim
        | index => exact ht.elim
        | copy => exact ht.elim

/-- C117 fails: fields that the layout does not name do not keep their values. In every header written all other bytes become zero,
unless the layout has the copy of the header. -/
theorem C117_rest_refuted {F : Type} (ops : FloatOps F) (cv : Conv F Int) (hcv : Whole cv) (zero : F)
    (hz : ∃ s, ops.findScalar zero = .ok s) (hz' : ∀ s, ∃ n, ops.encode zero s = .ok n)
    (ns N : Nat) (hN : 3600 + N * (240 + 4 * ns) < 2 ^ 63) (s : Start) (cs : List Call) (hw : Sound s cs)
    (hc : planned s cs COPY = none) (l : List Assign)
    (offset sz : Nat) (ho : offset + sz ≤ N) (hl : ∀ a ∈ l, a.row < sz ∧ Takes (planned s cs a.item) a.value) (d : Disk) :
    ∃ d', writeValues ops cv zero ns s cs l offset sz d = .ok d' ∧ ∀ i x, i < sz → 1 ≤ x → x ≤ 240 →
      (∀ m k a b, planned s cs m = some (k, a, b) → Valued k → ¬ (a ≤ x ∧ x < a + width k) ∧ (k = .float → ¬ (b ≤ x ∧ x < b + 2))) →
      d'.byte (3600 + (offset + i) * (240 + 4 * ns) + (x - 1)) = 0#8 := by
  obtain ⟨r, p, r1, r2, r4, p1, p2, p3, hok⟩ := write_ready ops cv hcv zero hz hz' ns N hN s cs hw l offset sz ho hl
  obtain ⟨d', e1, -, -, -, -, e6⟩ := write_keeps hok d
  refine ⟨d', ?_, fun i x hi h1 h2 hx => ?_⟩
  · unfold writeValues
    rw [r1, Res.ok_bind, p1, Res.ok_bind]
    dsimp only at e1
    rw [e1]
    rfl
  · have key : ∀ m e, (m, some e) ∈ p.rule.map → planned s cs m = some (e.kind, e.loc, e.scalLoc) := fun m e hme => by
      rw [← r4, ← p2.rule]
      unfold abs
      rw [find_of_mem p2.wf.inv.keys hme]
      rfl
    have hcopy : p.rule.cnt .copy = 0 := by
      by_contra hne
      rw [p2.rule] at hne
      obtain ⟨m, e, f1, f2, -⟩ := (C09_slots_partial r r2 .copy).2.2 0 (by omega)
      have hm := find_mem f1
      have hmc := (r2.inv.copyKey m e hm).1 f2
      subst hmc
      rw [← p2.rule] at hm
      rw [key _ e hm] at hc
      cases hc
    have hh := (e6 p rfl i hi).rest (x - 1) (by omega) (by
      rintro ⟨m, e, hme, hn⟩
      have hp := key m e hme
      rcases hn with ⟨v1, v2, v3⟩ | ⟨v1, v2, v3⟩
      · exact (hx m _ _ _ hp v1).1 ⟨by omega, by omega⟩
      · exact (hx m _ _ _ hp (Or.inr (Or.inr v1))).2 v1 ⟨by omega, by omega⟩)
    rw [if_neg (by rw [hcopy]; simp)] at hh
    rw [show (Where.start offset).trace i = offset + i from trace_start (num_small hN) ho hi] at hh
    exact hh

theorem low32 (v : Int) : ((BitVec.ofInt 64 v).setWidth 32).toInt = v.bmod (2 ^ 32) := by
  rw [BitVec.toInt_setWidth, BitVec.toNat_ofInt, Int.toNat_of_nonneg (Int.emod_nonneg _ (by decide))]
  rw [← Int.emod_bmod, Int.emod_emod_of_dvd v (by decide), Int.emod_bmod]

/-- C117 fails: a number of 64 bits that does not fit into the field is cut without a sign of it. The file holds another number. -/
theorem C117_wide_refuted {F : Type} (ops : FloatOps F) (cv : Conv F Int) (hcv : Whole cv) (zero : F)
    (hz : ∃ s, ops.findScalar zero = .ok s) (hz' : ∀ s, ∃ n, ops.encode zero s = .ok n)
    (ns N : Nat) (hN : 3600 + N * (240 + 4 * ns) < 2 ^ 63) (s : Start) (cs : List Call) (hw : Sound s cs)
    (offset sz : Nat) (ho : offset + sz ≤ N) (i m : Nat) (hi : i < sz) (a b : Nat) (hm : planned s cs m = some (.long, a, b)) (v : Int)
    (hv : ¬ (-2 ^ 31 ≤ v ∧ v < 2 ^ 31)) (d : Disk) :
    ∃ d' n, writeValues ops cv zero ns s cs [⟨i, m, v⟩] offset sz d = .ok d' ∧ n ≠ v ∧ n = v.bmod (2 ^ 32) ∧
      ∀ at', at' = 3600 + (offset + i) * (240 + 4 * ns) + (a - 1) →
        (fromBE32 (d'.byte at') (d'.byte (at' + 1)) (d'.byte (at' + 2)) (d'.byte (at' + 3))).toInt = n := by
  obtain ⟨r, r1, r2, r3, r4⟩ := layout_spec hw
  have hwf := mk_wf zero r2.inv sz
  obtain ⟨p, h1, h2, h3, h4, h5, -⟩ := C11_set_get cv (mk zero r sz) hwf i m v (.long, a, b) hi (by show abs r m = _; rw [r4, hm])
  have h3 : p.rule = r := h3
  have h4 : p.sz = sz := h4
  obtain ⟨e, he, hev⟩ := entry_of_abs (r := r) (m := m) (v := (.long, a, b)) (by rw [r4]; exact hm)
  unfold entryVal at hev
  injection hev with hek hev
  injection hev with hea heb
  have hf : p.f = (mk zero r sz).f := by
    unfold setPrm at h1
    rw [getEntry_of_mem hwf.inv he] at h1
    dsimp only at h1
    rw [hek] at h1
    obtain ⟨x, -, h7⟩ := bind_ok_inv h1
    rw [← Res.ok.inj h7]
  have hok : WOp.Ok ops ns N ⟨.start offset, sz, none, some p, 0⟩ := by
    refine ⟨small_start hN ho, fun i j hij hj => ?_, fun t h => (by cases h), fun p' h => ?_, Or.inr (by simp)⟩
    · have hj : j < sz := hj
      show (Where.start offset).trace i < (Where.start offset).trace j
      rw [trace_start (num_small hN) ho hj, trace_start (num_small hN) ho (by omega : i < sz)]; omega
    · obtain rfl := Option.some.inj h
      refine ⟨⟨h2, by rw [h3]; exact layout_hdr hw r2 r4, by rw [h3]; exact r3, by rw [h3]; exact reach_start r2 r3,
        fun x _ => by rw [hf]; exact hz, fun x _ => by rw [hf]; exact hz'⟩, ?_⟩
      show sz + 0 ≤ p.sz
      omega
  obtain ⟨d', e1, -, -, -, -, e6⟩ := write_keeps hok d
  refine ⟨d', v.bmod (2 ^ 32), ?_, fun e => hv ?_, rfl, fun at' hat => ?_⟩
  · unfold writeValues setAll setAll
    rw [r1, Res.ok_bind, h1, Res.ok_bind, Res.ok_bind]
    dsimp only at e1
    rw [e1]
    rfl
  · rw [← e]
    have h1 := Int.le_bmod (x := v) (m := 2 ^ 32) (by decide)
    have h2 := Int.bmod_lt (x := v) (m := 2 ^ 32) (by decide)
    simp at h1 h2 ⊢
    omega
  · have hh := (e6 p rfl i hi).items m e (by rw [h3]; exact he)
    rw [show (Where.start offset).trace i = offset + i from trace_start (num_small hN) ho hi] at hh
    have hg := h5
    unfold getPrm at hg
    rw [h3, getEntry_of_mem r2.inv he] at hg
    dsimp only at hg
    rw [hek] at hg
    obtain ⟨y, hy, hg⟩ := bind_ok_inv hg
    have hy' : y = p.i.val (r.cnt .long * i + e.num) := by
      unfold Arr.get at hy
      split at hy
      · exact (Res.ok.inj hy).symm
      · cases hy
    have hyv : y = BitVec.ofInt 64 v := by
      have hg := Res.ok.inj hg
      rw [hcv.ofI] at hg
      change y.toInt = cv.ofI (cv.toI v) at hg
      rw [hcv.ofI, hcv.toI] at hg
      exact BitVec.eq_of_toInt_eq hg
    have := hh.2.1 hek
    rw [h3, show (i + 0) * r.cnt .long + e.num = r.cnt .long * i + e.num by rw [Nat.add_zero, Nat.mul_comm], ← hy', hyv] at this
    unfold val32 at this
    rw [Nat.zero_add] at this
    subst hat hea
    rw [← low32, ← this]
    rfl

/-- C117 fails: the same for the fields of two bytes. -/
theorem C117_short_refuted {F : Type} (ops : FloatOps F) (cv : Conv F Int) (hcv : Whole cv) (zero : F)
    (hz : ∃ s, ops.findScalar zero = .ok s) (hz' : ∀ s, ∃ n, ops.encode zero s = .ok n)
    (ns N : Nat) (hN : 3600 + N * (240 + 4 * ns) < 2 ^ 63) (s : Start) (cs : List Call) (hw : Sound s cs)
    (offset sz : Nat) (ho : offset + sz ≤ N) (i m : Nat) (hi : i < sz) (a b : Nat) (hm : planned s cs m = some (.short, a, b)) (v : Int)
    (hv : ¬ (-2 ^ 15 ≤ v ∧ v < 2 ^ 15)) (d : Disk) :
    ∃ d' n, writeValues ops cv zero ns s cs [⟨i, m, v⟩] offset sz d = .ok d' ∧ n ≠ v ∧ n = v.bmod (2 ^ 16) ∧
      ∀ at', at' = 3600 + (offset + i) * (240 + 4 * ns) + (a - 1) →
        (fromBE16 (d'.byte at') (d'.byte (at' + 1))).toInt = n := by
  obtain ⟨r, r1, r2, r3, r4⟩ := layout_spec hw
  have hwf := mk_wf zero r2.inv sz
  obtain ⟨p, h1, h2, h3, h4, h5, -⟩ := C11_set_get cv (mk zero r sz) hwf i m v (.short, a, b) hi (by show abs r m = _; rw [r4, hm])
  have h3 : p.rule = r := h3
  have h4 : p.sz = sz := h4
  obtain ⟨e, he, hev⟩ := entry_of_abs (r := r) (m := m) (v := (.short, a, b)) (by rw [r4]; exact hm)
  unfold entryVal at hev
  injection hev with hek hev
  injection hev with hea heb
  have hf : p.f = (mk zero r sz).f := by
    unfold setPrm at h1
    rw [getEntry_of_mem hwf.inv he] at h1
    dsimp only at h1
    rw [hek] at h1
    obtain ⟨x, -, h7⟩ := bind_ok_inv h1
    rw [← Res.ok.inj h7]
  have hok : WOp.Ok ops ns N ⟨.start offset, sz, none, some p, 0⟩ := by
    refine ⟨small_start hN ho, fun i j hij hj => ?_, fun t h => (by cases h), fun p' h => ?_, Or.inr (by simp)⟩
    · have hj : j < sz := hj
      show (Where.start offset).trace i < (Where.start offset).trace j
      rw [trace_start (num_small hN) ho hj, trace_start (num_small hN) ho (by omega : i < sz)]; omega
    · obtain rfl := Option.some.inj h
      refine ⟨⟨h2, by rw [h3]; exact layout_hdr hw r2 r4, by rw [h3]; exact r3, by rw [h3]; exact reach_start r2 r3,
        fun x _ => by rw [hf]; exact hz, fun x _ => by rw [hf]; exact hz'⟩, ?_⟩
      show sz + 0 ≤ p.sz
      omega
  obtain ⟨d', e1, -, -, -, -, e6⟩ := write_keeps hok d
  refine ⟨d', v.bmod (2 ^ 16), ?_, fun e => hv ?_, rfl, fun at' hat => ?_⟩
  · unfold writeValues setAll setAll
    rw [r1, Res.ok_bind, h1, Res.ok_bind, Res.ok_bind]
    dsimp only at e1
    rw [e1]
    rfl
  · rw [← e]
    have h1 := Int.le_bmod (x := v) (m := 2 ^ 16) (by decide)
    have h2 := Int.bmod_lt (x := v) (m := 2 ^ 16) (by decide)
    simp at h1 h2 ⊢
    omega
  · have hh := (e6 p rfl i hi).items m e (by rw [h3]; exact he)
    rw [show (Where.start offset).trace i = offset + i from trace_start (num_small hN) ho hi] at hh
    have hg := h5
    unfold getPrm at hg
    rw [h3, getEntry_of_mem r2.inv he] at hg
    dsimp only at hg
    rw [hek] at hg
    obtain ⟨y, hy, hg⟩ := bind_ok_inv hg
    have hy' : y = p.s.val (r.cnt .short * i + e.num) := by
      unfold Arr.get at hy
      split at hy
      · exact (Res.ok.inj hy).symm
      · cases hy
    have hyv : y = BitVec.ofInt 16 v := by
      have hg := Res.ok.inj hg
      rw [hcv.ofS] at hg
      change y.toInt = cv.ofS (cv.toS v) at hg
      rw [hcv.ofS, hcv.toS] at hg
      exact BitVec.eq_of_toInt_eq hg
    have := hh.1 hek
    rw [h3, show (i + 0) * r.cnt .short + e.num = r.cnt .short * i + e.num by rw [Nat.add_zero, Nat.mul_comm], ← hy', hyv] at this
    unfold val16 at this
    rw [Nat.zero_add] at this
    subst hat hea
    rw [← BitVec.toInt_ofInt, ← this]
    rfl

theorem setAll_append {F : Type} (cv : Conv F Int) (l₁ l₂ : List Assign) : ∀ {p p' : Param F}, setAll cv l₁ p = .ok p' →
    setAll cv (l₁ ++ l₂) p = setAll cv l₂ p' := by
  induction l₁ with
  | nil => intro p p' h; rw [Res.ok.inj h]; rfl
  | cons a l ih =>
    intro p p' h
    unfold setAll at h
    obtain ⟨q, h1, h2⟩ := bind_ok_inv h
    rw [List.cons_append]
    conv => lhs; unfold setAll
    rw [h1, Res.ok_bind]
    exact ih h2

/-- C117 fails: setting an item that the layout does not hold, or a row past the last, is undefined behaviour, whatever was set before
and after. -/
theorem C117_set_refuted {F : Type} (ops : FloatOps F) (cv : Conv F Int) (hcv : Whole cv) (zero : F) (ns : Nat) (s : Start)
    (cs : List Call) (hw : Sound s cs) (offset sz : Nat) (l : List Assign)
    (hl : ∀ a ∈ l, a.row < sz ∧ Takes (planned s cs a.item) a.value) (a : Assign)
    (ha : planned s cs a.item = none ∨ sz ≤ a.row ∧ ∃ k x y, planned s cs a.item = some (k, x, y) ∧ (k = .long ∨ k = .short))
    (l' : List Assign) (d : Disk) :
    writeValues ops cv zero ns s cs (l ++ a :: l') offset sz d = .ub := by
  obtain ⟨r, r1, r2, r3, r4⟩ := layout_spec hw
  obtain ⟨p, p1, p2, -, -⟩ := setAll_good hcv (r := r) (sz := sz) (zero := zero) l (p := mk zero r sz)
    ⟨mk_wf zero r2.inv sz, rfl, rfl, fun _ => rfl, fun _ => by show -2 ^ 31 ≤ (0#64).toInt ∧ (0#64).toInt < 2 ^ 31; decide⟩
    (fun a ha => by rw [r4]; exact hl a ha)
  have hub : setPrm cv a.row a.item a.value p = .ub := by
    unfold setPrm
    rw [p2.rule]
    rcases ha with ha | ⟨hs, k, x, y, ha, hk⟩
    · have hn := (abs_none_iff r2.inv a.item).1 (by rw [r4]; exact ha)
      have : (getEntry r a.item).2 = none := by
        unfold getEntry
        rw [hn]
      rw [this]
    · obtain ⟨e, he, hev⟩ := entry_of_abs (r := r) (m := a.item) (v := (k, x, y)) (by rw [r4]; exact ha)
      rw [getEntry_of_mem r2.inv he]
      have hek : e.kind = k := congrArg Prod.fst hev
      rcases hk with rfl | rfl
      · dsimp only
        rw [hek]
        have : ¬ r.cnt .long * a.row + e.num < p.i.len := by
          rw [p2.wf.i, p2.rule, p2.sz, Nat.mul_comm sz]
          have := Nat.mul_le_mul_left (r.cnt .long) hs
          omega
        dsimp only
        unfold Arr.set
        rw [if_neg this]
        rfl
      · dsimp only
        rw [hek]
        have : ¬ r.cnt .short * a.row + e.num < p.s.len := by
          rw [p2.wf.s, p2.rule, p2.sz, Nat.mul_comm sz]
          have := Nat.mul_le_mul_left (r.cnt .short) hs
          omega
        dsimp only
        unfold Arr.set
        rw [if_neg this]
        rfl
  unfold writeValues
  rw [r1, Res.ok_bind, setAll_append cv l _ p1]
  unfold setAll
  rw [hub]
  rfl

/-- C117 fails: a layout from which the number of the trace (item 1), which the program did not ask for, has been removed cannot be
read with: the behaviour is undefined for every file that has the traces. -/
theorem C117_number_refuted {F : Type} (ops : FloatOps F) (cvt : Conv F (BitVec 64)) (zero : F)
    (ns nt : Nat) (hN : 3600 + nt * (240 + 4 * ns) < 2 ^ 63) (s : Start) (cs : List Call) (hs : Sound s cs)
    (hltn : planned s cs 1 = none) (offset sz : Nat) (hsz : 0 < sz) (ho : offset + sz ≤ nt) (d : Disk)
    (hd : 3600 + nt * (240 + 4 * ns) ≤ d.size) : readValues ops cvt zero ns nt s cs offset sz d = .ub := by
  obtain ⟨r, q1, q2, q3, q4⟩ := layout_spec hs
  have hN' := num_small hN
  have h := small_start hN ho
  have hi : Ndec (.start offset) sz := fun i j hij hj => by
    rw [trace_start hN' ho hj, trace_start hN' ho (by omega : i < sz)]; omega
  have hbytes : 240 * sz < 2 ^ 63 := by
    have : sz * 240 ≤ nt * (240 + 4 * ns) := Nat.mul_le_mul (by omega) (by omega)
    omega
  have ha : alloc (mul64 getMDSz sz) = .ok (.fill (240 * sz) 0#8) := by
    unfold alloc getMDSz
    rw [mul64_eq (by omega), if_pos (by omega)]
  obtain ⟨b, f1, f2, -, -⟩ := fetch_blocks (reqMD_blocks h) (.fill (240 * sz) 0#8) d (Nat.le_refl _) (fun i hi' => by
    have hi'' : i < sz := hi'
    show taddr ns ((Where.start offset).trace i) + 240 ≤ d.size
    rw [trace_start hN' ho hi'']
    have := taddr_le (ns := ns) (show offset + i < nt by omega)
    unfold taddr at *
    omega)
  have f2 : b.len = 240 * sz := f2
  obtain ⟨q, e1, e2, -⟩ := extractParam_spec ops b 0 sz 0 0 (mk zero r sz) (mk_wf zero q2.inv sz) (layout_hdr hs q2 q4) q3
    (reach_start q2 q3) (by show sz + 0 ≤ sz; omega) (by rw [f2]; omega) (by rw [f2]; omega)
  have hcl : clamp nt offset sz = sz := by
    unfold clamp add64
    rw [Nat.mod_eq_of_lt (by omega), if_neg (by omega), if_neg (by omega)]
  have hg : (getEntry q.rule ltn).2 = none := by
    rw [show q.rule = r from e2.rule]
    unfold getEntry
    rw [(abs_none_iff q2.inv ltn).1 (by rw [q4]; exact hltn)]
  unfold readValues readTrace readTraceT readIn readReqs
  rw [q1, Res.ok_bind, hcl]
  simp only [if_true, Bool.false_eq_true, if_false]
  rw [ha, Res.ok_bind, recv_MD h hi, f1, Res.ok_bind, e1, Res.ok_bind]
  obtain ⟨n, rfl⟩ : ∃ n, sz = n + 1 := ⟨sz - 1, by omega⟩
  unfold setLtn setPrm
  rw [hg]
  rfl

/-! ### Cases -/

/-- The line number 26 is put at byte 181 as a short number and, instead of it, later at 9 as a long one; item 40 is the program's own,
at byte 233. -/
def exCalls : List Call := [.addShort 26 181, .addShort 40 233, .addLong 26 9, .addMeta 7, .rmRule 7]

theorem exPlanned (m : Nat) : planned (.plain false) exCalls m =
    if m = 1 ∨ m = 2 then some (.index, 0, 0) else if m = 26 then some (.long, 9, 0) else if m = 40 then some (.short, 233, 0) else none := by
  unfold planned exCalls
  by_cases h26 : m = 26
  · subst h26; rfl
  by_cases h40 : m = 40
  · subst h40; rfl
  by_cases h7 : m = 7
  · subst h7; rfl
  simp [Call.effect, Start.holds, h26, h40, Ne.symm h26, Ne.symm h40, Ne.symm h7]

theorem exSound : Sound (.plain false) exCalls := by
  have key : ∀ m k a b, planned (.plain false) exCalls m = some (k, a, b) → Valued k →
      (m = 26 ∧ k = .long ∧ a = 9) ∨ (m = 40 ∧ k = .short ∧ a = 233) := by
    intro m k a b h hv
    rw [exPlanned] at h
    split at h
    · injection h with h; injection h with h; subst h; rcases hv with h | h | h <;> cases h
    split at h
    · injection h with h; injection h with h1 h2; injection h2 with h2 _; exact Or.inl ⟨by assumption, h1.symm, h2.symm⟩
    split at h
    · injection h with h; injection h with h1 h2; injection h2 with h2 _; exact Or.inr ⟨by assumption, h1.symm, h2.symm⟩
    · cases h
  have nof : ∀ m a b, planned (.plain false) exCalls m ≠ some (.float, a, b) := by
    intro m a b h
    rcases key m _ a b h (Or.inr (Or.inr rfl)) with ⟨-, h, -⟩ | ⟨-, h, -⟩ <;> cases h
  refine ⟨by simp [exCalls, COPY], fun m k a b h hv => ?_, fun m a b h => absurd h (nof m a b), ?_,
    fun m k a b m' a' b' _ h => absurd h (nof m' a' b'), fun m a b m' a' b' h => absurd h (nof m a b)⟩
  · rcases key m k a b h hv with ⟨-, rfl, rfl⟩ | ⟨-, rfl, rfl⟩ <;> decide
  · intro m k a b m' k' a' b' h h' hne hv hv'
    rcases key m k a b h hv with ⟨rfl, rfl, rfl⟩ | ⟨rfl, rfl, rfl⟩ <;>
      rcases key m' k' a' b' h' hv' with ⟨rfl, rfl, rfl⟩ | ⟨rfl, rfl, rfl⟩ <;> first | exact absurd rfl hne | decide

/-- Coordinates that are always zero. -/
def exOps : FloatOps Int := ⟨fun _ => .ok 1#16, fun _ _ => .ok 0#32, fun _ _ => 0⟩

theorem exWhole : Whole intConv := ⟨fun _ => rfl, fun _ => rfl, fun _ => rfl, fun _ => rfl⟩

/-- Two values, one of them set twice. -/
def exSets : List Assign := [⟨1, 26, 5⟩, ⟨0, 40, -3⟩, ⟨1, 26, -70000⟩]

theorem exSets_take : ∀ a ∈ exSets, a.row < 2 ∧ Takes (planned (.plain false) exCalls a.item) a.value := by
  intro a ha
  simp only [exSets, List.mem_cons, List.not_mem_nil, or_false] at ha
  rcases ha with rfl | rfl | rfl <;> rw [exPlanned] <;> simp [Takes]

/-- The hypotheses of `C117_layout_partial`, for writer and reader, and what they give for the values. -/
example (d : Disk) : ∃ d', writeValues exOps intConv 0 3 (.plain false) exCalls exSets 4 2 d = .ok d' ∧
    (fromBE32 (d'.byte (3600 + 5 * 252 + 8)) (d'.byte (3600 + 5 * 252 + 9)) (d'.byte (3600 + 5 * 252 + 10))
      (d'.byte (3600 + 5 * 252 + 11))).toInt = -70000 ∧
    (3600 + 6 * 252 ≤ d'.size → ∃ q, readValues exOps ⟨fun _ => 0, id, fun _ => 0#16, id, fun _ => 0#64, id, fun _ => 0#64, id, 0#64⟩ 0 3 6
      (.plain false) exCalls 5 1 d' = .ok (some q) ∧ getPrm intConv 0 26 q = .ok (-70000)) := by
  have hlast : Lastly exSets 1 26 (-70000) := ⟨[⟨1, 26, 5⟩, ⟨0, 40, -3⟩], [], rfl, by simp⟩
  obtain ⟨d', e1, -, -, e4, e5⟩ := C117_layout_partial exOps intConv exWhole
    ⟨fun _ => 0, id, fun _ => 0#16, id, fun _ => 0#64, id, fun _ => 0#64, id, 0#64⟩ (fun _ => rfl) 0 ⟨_, rfl⟩ (fun _ => ⟨_, rfl⟩) 3 10
    (by decide) (.plain false) exCalls exSound exSets 4 2 (by omega) exSets_take d
  refine ⟨d', e1, (e4 1 26 (-70000) .long 9 0 hlast (by rw [exPlanned]; rfl) _ rfl).1 rfl, fun hs => ?_⟩
  obtain ⟨q, q1, q2⟩ := e5 (.plain false) exCalls 5 1 6 exSound (by rw [exPlanned]; rfl) (by omega) (by omega) hs
  exact ⟨q, q1, q2 1 0 26 _ hlast (by omega) (by omega) rfl⟩

/-- The hypotheses of `C117_rest_refuted`: the inline number at its standard place, byte 189, is lost. -/
example (d : Disk) : ∃ d', writeValues exOps intConv 0 3 (.plain false) exCalls exSets 4 2 d = .ok d' ∧
    d'.byte (3600 + 5 * 252 + 188) = 0#8 := by
  obtain ⟨d', e1, e2⟩ := C117_rest_refuted exOps intConv exWhole 0 ⟨_, rfl⟩ (fun _ => ⟨_, rfl⟩) 3 10
    (by decide) (.plain false) exCalls exSound (by rw [exPlanned]; rfl) exSets 4 2 (by omega) exSets_take d
  refine ⟨d', e1, e2 1 189 (by omega) (by omega) (by omega) fun m k a b h hv => ?_⟩
  rw [exPlanned] at h
  split at h
  · injection h with h; injection h with h; subst h; rcases hv with h | h | h <;> cases h
  split at h
  · injection h with h; injection h with h1 h2; injection h2 with h2 _; subst h1 h2; exact ⟨by decide, fun h => by cases h⟩
  split at h
  · injection h with h; injection h with h1 h2; injection h2 with h2 _; subst h1 h2; exact ⟨by decide, fun h => by cases h⟩
  · cases h

/-- The hypotheses of `C117_wide_refuted`: 5000000000 becomes 705032704. -/
example (d : Disk) : ∃ d', writeValues exOps intConv 0 3 (.plain false) exCalls [⟨1, 26, 5000000000⟩] 4 2 d = .ok d' ∧
    (fromBE32 (d'.byte (3600 + 5 * 252 + 8)) (d'.byte (3600 + 5 * 252 + 9)) (d'.byte (3600 + 5 * 252 + 10))
      (d'.byte (3600 + 5 * 252 + 11))).toInt = 705032704 := by
  obtain ⟨d', n, e1, -, e3, e4⟩ := C117_wide_refuted exOps intConv exWhole 0 ⟨_, rfl⟩ (fun _ => ⟨_, rfl⟩) 3 10
    (by decide) (.plain false) exCalls exSound 4 2 (by omega) 1 26 (by omega) 9 0 (by rw [exPlanned]; rfl) 5000000000 (by decide) d
  exact ⟨d', e1, (e4 _ rfl).trans (e3.trans (by decide))⟩

/-- The hypotheses of `C117_short_refuted`: 40000 becomes -25536. -/
example (d : Disk) : ∃ d', writeValues exOps intConv 0 3 (.plain false) exCalls [⟨1, 40, 40000⟩] 4 2 d = .ok d' ∧
    (fromBE16 (d'.byte (3600 + 5 * 252 + 232)) (d'.byte (3600 + 5 * 252 + 233))).toInt = -25536 := by
  obtain ⟨d', n, e1, -, e3, e4⟩ := C117_short_refuted exOps intConv exWhole 0 ⟨_, rfl⟩ (fun _ => ⟨_, rfl⟩) 3 10
    (by decide) (.plain false) exCalls exSound 4 2 (by omega) 1 40 (by omega) 233 0 (by rw [exPlanned]; rfl) 40000 (by decide) d
  exact ⟨d', e1, (e4 _ rfl).trans (e3.trans (by decide))⟩

/-- The hypotheses of `C117_set_refuted`: item 7 was removed; row 2 of two rows. -/
example (d : Disk) : writeValues exOps intConv 0 3 (.plain false) exCalls ([] ++ ⟨1, 7, 5⟩ :: []) 4 2 d = .ub ∧
    writeValues exOps intConv 0 3 (.plain false) exCalls ([⟨1, 26, 5⟩] ++ ⟨2, 40, 5⟩ :: [⟨0, 26, 4⟩]) 4 2 d = .ub :=
  ⟨C117_set_refuted exOps intConv exWhole 0 3 (.plain false) exCalls exSound 4 2 [] (by simp) ⟨1, 7, 5⟩
      (Or.inl (by rw [exPlanned]; rfl)) [] d,
    C117_set_refuted exOps intConv exWhole 0 3 (.plain false) exCalls exSound 4 2 [⟨1, 26, 5⟩]
      (by intro a ha; obtain rfl := List.mem_singleton.1 ha; exact ⟨by decide, by rw [exPlanned]; show (-2 ^ 31 : Int) ≤ 5 ∧ (5 : Int) < 2 ^ 31; decide⟩)
      ⟨2, 40, 5⟩ (Or.inr ⟨by decide, .short, 233, 0, by rw [exPlanned]; rfl, Or.inr rfl⟩) [⟨0, 26, 4⟩] d⟩

/-- The hypotheses of `C117_number_refuted`: with nothing but item 26. -/
example : Sound (.plain false) [.addLong 26 9, .rmRule 1] ∧ planned (.plain false) [.addLong 26 9, .rmRule 1] 1 = none := by
  have key : ∀ m, planned (.plain false) [.addLong 26 9, .rmRule 1] m =
      if m = 2 then some (.index, 0, 0) else if m = 26 then some (.long, 9, 0) else none := by
    intro m
    unfold planned
    by_cases h26 : m = 26
    · subst h26; rfl
    by_cases h1 : m = 1
    · subst h1; rfl
    simp [Call.effect, Start.holds, h26, h1, Ne.symm h26, Ne.symm h1]
  have key' : ∀ m k a b, planned (.plain false) [.addLong 26 9, .rmRule 1] m = some (k, a, b) → Valued k → m = 26 ∧ k = .long ∧ a = 9 := by
    intro m k a b h hv
    rw [key] at h
    split at h
    · injection h with h; injection h with h; subst h; rcases hv with h | h | h <;> cases h
    split at h
    · injection h with h; injection h with h1 h2; injection h2 with h2 _; exact ⟨by assumption, h1.symm, h2.symm⟩
    · cases h
  have nof : ∀ m a b, planned (.plain false) [.addLong 26 9, .rmRule 1] m ≠ some (.float, a, b) := by
    intro m a b h
    obtain ⟨-, h, -⟩ := key' m _ a b h (Or.inr (Or.inr rfl))
    cases h
  refine ⟨⟨by simp [COPY], fun m k a b h hv => ?_, fun m a b h => absurd h (nof m a b), ?_,
    fun m k a b m' a' b' _ h => absurd h (nof m' a' b'), fun m a b m' a' b' h => absurd h (nof m a b)⟩, by rw [key]; rfl⟩
  · obtain ⟨-, rfl, rfl⟩ := key' m k a b h hv
    decide
  · intro m k a b m' k' a' b' h h' hne hv hv'
    exact absurd ((key' m k a b h hv).1.trans (key' m' k' a' b' h' hv').1.symm) hne

end Verif.CLayout
