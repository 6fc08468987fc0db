import Verif.Param.Lemmas
import Verif.Props.Rule
/-!
# C11, C12, C13 (bytes), C16: trace parameters and trace headers
-/
namespace Verif.Params
open Verif.Rules Verif.Endian

/-! ## Rules covering the whole header start at byte 0 -/

theorem bind_ok_inv {α β : Type} {x : Res α} {f : α → Res β} {b : β} (h : (x >>= f) = .ok b) :
    ∃ a, x = .ok a ∧ f a = .ok b := by
  cases x with
  | ok a => exact ⟨a, rfl, h⟩
  | abort => cases h
  | ub => cases h

theorem rmRule_start {r r' : Rule} {m : Nat} (h : rmRule r m = .ok r') : r'.start = r.start := by
  unfold rmRule at h
  split at h
  · cases h; rfl
  · cases h
  · obtain ⟨l, _, h2⟩ := bind_ok_inv h
    cases h2; rfl

theorem rmIfPresent_start {r r' : Rule} {m : Nat} (h : rmIfPresent r m = .ok r') : r'.start = r.start := by
  unfold rmIfPresent at h
  split at h
  · cases h; rfl
  · exact rmRule_start h

theorem addKind_start {r r' : Rule} {m : Nat} {k : Kind} {loc scal : Nat}
    (h : addKind r m k loc scal = .ok r') : r'.start = r.start := by
  cases k <;> simp only [addKind, addLong, addShort, addFloat, addIndex] at h
  case copy =>
    cases h; unfold addCopy; split <;> rfl
  all_goals
    obtain ⟨r1, h1, h2⟩ := bind_ok_inv h
    have h3 := rmIfPresent_start h1
    cases h2
    exact h3

theorem addRules_start (l : Map) : ∀ {r r' : Rule}, addRules r l = .ok r' → r'.start = r.start := by
  induction l with
  | nil => intro r r' h; cases h; rfl
  | cons q l ih =>
    intro r r' h
    obtain ⟨m, o⟩ := q
    unfold addRules at h
    split at h
    · exact ih h
    · split at h
      · cases h
      · obtain ⟨r1, h1, h2⟩ := bind_ok_inv h
        rw [ih h2, addKind_start h1]

theorem finish_start {r r' : Rule} (h : finish r true = .ok r') : r'.start = 0 := by
  unfold finish at h
  rw [if_pos rfl] at h
  cases h; rfl

theorem extent_start {r r' : Rule} {n : Nat} (hf : r.fullextent = true) (h : extent r = .ok (r', n)) :
    r'.start = r.start := by
  rw [extent_full hf] at h; cases h; rfl

/-- A full-extent rule starts at byte 0 and its flag never changes. -/
theorem reach_start {P : Rule → Prop} {r : Rule} (h : Reach P r) (hf : r.fullextent = true) :
    r.start = 0 := by
  induction h with
  | @ctor ms full d e r h _ =>
    obtain ⟨r', h1, _, h3⟩ := ctor_inv ms full d e
    rw [h] at h1; cases h1
    have hfull : full = true := by rw [← h3]; exact hf
    subst hfull
    unfold ctor at h
    obtain ⟨_, _, h⟩ := bind_ok_inv h
    obtain ⟨_, _, h⟩ := bind_ok_inv h
    obtain ⟨_, _, h⟩ := bind_ok_inv h
    obtain ⟨_, _, h⟩ := bind_ok_inv h
    obtain ⟨_, _, h⟩ := bind_ok_inv h
    exact finish_start h
  | @ctorMap l full r hw hn hl h _ =>
    unfold ctorMap at h
    obtain ⟨c, _, h⟩ := bind_ok_inv h
    cases full with
    | true => exact finish_start h
    | false =>
      unfold finish at h
      simp only [Bool.false_eq_true, if_false] at h
      obtain ⟨⟨r1, n⟩, h1, h2⟩ := bind_ok_inv h
      cases h2
      unfold extent at h1
      simp only [Bool.false_eq_true, if_false, if_true] at h1
      obtain ⟨⟨s, t⟩, _, h3⟩ := bind_ok_inv h1
      cases h3
      cases hf
  | @step r op r' o hr ha h _ ih =>
    have hff : r.fullextent = true := by
      obtain ⟨r1, o1, e1, _, _, _, e5⟩ := step_spec hr.inv op ha
      rw [h] at e1; cases e1
      rw [← e5]; exact hf
    have h0 := ih hff
    rw [← h0]
    cases op with
    | addLong m loc =>
      obtain ⟨r1, h1, h2⟩ := bind_ok_inv (show (do .ok (← addLong r m loc, Out.unit)) = Res.ok (r', o) from h)
      cases h2; exact addKind_start (k := .long) (scal := 0) h1
    | addShort m loc =>
      obtain ⟨r1, h1, h2⟩ := bind_ok_inv (show (do .ok (← addShort r m loc, Out.unit)) = Res.ok (r', o) from h)
      cases h2; exact addKind_start (k := .short) (scal := 0) h1
    | addFloat m loc scal =>
      obtain ⟨r1, h1, h2⟩ := bind_ok_inv (show (do .ok (← addFloat r m loc scal, Out.unit)) = Res.ok (r', o) from h)
      cases h2; exact addKind_start (k := .float) h1
    | addIndex m =>
      obtain ⟨r1, h1, h2⟩ := bind_ok_inv (show (do .ok (← addIndex r m, Out.unit)) = Res.ok (r', o) from h)
      cases h2; exact addKind_start (k := .index) (loc := 0) (scal := 0) h1
    | addCopy =>
      cases h
      exact addKind_start (m := 0) (k := .copy) (loc := 0) (scal := 0) rfl
    | rmRule m =>
      obtain ⟨r1, h1, h2⟩ := bind_ok_inv (show (do .ok (← rmRule r m, Out.unit)) = Res.ok (r', o) from h)
      cases h2; exact rmRule_start h1
    | addRule m =>
      obtain ⟨⟨r1, b⟩, h1, h2⟩ :=
        bind_ok_inv (show (do let (r, b) ← addRule r m; .ok (r, Out.bool b)) = Res.ok (r', o) from h)
      cases h2
      unfold addRule at h1
      split at h1
      · cases h1; rfl
      · split at h1
        · cases h1; rfl
        · obtain ⟨r2, h3, h4⟩ := bind_ok_inv h1
          cases h4; exact addKind_start h3
    | addRules l => exact absurd ha (by simp [Allowed])
    | getEntry m =>
      have hx : Res.ok ((getEntry r m).1, Out.entry (getEntry r m).2) = Res.ok (r', o) := h
      cases hx
      unfold getEntry; split <;> rfl
    | extent =>
      obtain ⟨⟨r1, n⟩, h1, h2⟩ :=
        bind_ok_inv (show (do let (r, n) ← extent r; .ok (r, Out.size n)) = Res.ok (r', o) from h)
      cases h2
      exact extent_start hff h1
  | @addRules r r₂ l r' hr hr₂ hp h _ ih _ =>
    obtain ⟨r1, e1, _, e3, _⟩ := addRules_spec l hr.inv (MapWF.of_inv hr₂.inv hp)
    rw [h] at e1; cases e1
    rw [addRules_start l h]
    exact ih (by rw [← e3]; exact hf)

/-! ## C11 -/

/-- A value converted to the type of a slot and back. -/
def viaSlot {F T : Type} (cv : Conv F T) (k : Kind) (v : T) : T :=
  match k with
  | .float => cv.ofF (cv.toF v)
  | .long => cv.ofI (cv.toI v)
  | .short => cv.ofS (cv.toS v)
  | .index => cv.ofT (cv.toT v)
  | .copy => cv.zero

/-- What `getPrm` makes of a stored item. -/
def ofItem {F T : Type} (cv : Conv F T) : F ⊕ BitVec 64 ⊕ BitVec 16 ⊕ BitVec 64 ⊕ List Byte → T
  | .inl x => cv.ofF x
  | .inr (.inl x) => cv.ofI x
  | .inr (.inr (.inl x)) => cv.ofS x
  | .inr (.inr (.inr (.inl x))) => cv.ofT x
  | .inr (.inr (.inr (.inr _))) => cv.zero

theorem getPrm_item {F T : Type} (cv : Conv F T) (p : Param F) (hp : WF p) {m : Nat} {e : Entry}
    (hm : (m, some e) ∈ p.rule.map) {row : Nat} (hr : row < p.sz) :
    getPrm cv row m p = .ok (ofItem cv (item p row e)) := by
  have hlt := num_lt hp.inv hm
  unfold getPrm getEntry
  rw [find_of_mem hp.inv.keys hm]
  simp only
  cases hk : e.kind with
  | float => rw [hk] at hlt; simp only; rw [Arr.get_ok (by rw [hp.f]; exact idx_lt hlt hr)]; simp [item, hk, ofItem]
  | long => rw [hk] at hlt; simp only; rw [Arr.get_ok (by rw [hp.i]; exact idx_lt hlt hr)]; simp [item, hk, ofItem]
  | short => rw [hk] at hlt; simp only; rw [Arr.get_ok (by rw [hp.s]; exact idx_lt hlt hr)]; simp [item, hk, ofItem]
  | index => rw [hk] at hlt; simp only; rw [Arr.get_ok (by rw [hp.t]; exact idx_lt hlt hr)]; simp [item, hk, ofItem]
  | copy => simp [item, hk, ofItem]

theorem entry_of_abs {r : Rule} {m : Nat} {v : Val} (h : abs r m = some v) :
    ∃ e, (m, some e) ∈ r.map ∧ entryVal e = v := by
  unfold abs at h
  split at h
  · rename_i e hf
    exact ⟨e, find_mem hf, by simpa using h⟩
  · cases h

/-- **C11**: for a `Param` whose storage matches its rule, setting an item the
rule knows succeeds; reading it back gives the value converted to the slot's
type; every other (item, trace) pair reads as before, whatever type it is read
as; and the storage still matches. -/
theorem C11_set_get {F T : Type} (cv : Conv F T) (p : Param F) (hp : WF p) (i m : Nat) (v : T) (w : Val)
    (hi : i < p.sz) (hm : abs p.rule m = some w) :
    ∃ p', setPrm cv i m v p = .ok p' ∧ WF p' ∧ p'.rule = p.rule ∧ p'.sz = p.sz ∧
      getPrm cv i m p' = .ok (viaSlot cv w.1 v) ∧
      ∀ (T' : Type) (cv' : Conv F T') i' m', i' < p.sz → abs p.rule m' ≠ none → ¬ (i' = i ∧ m' = m) →
        getPrm cv' i' m' p' = getPrm cv' i' m' p := by
  obtain ⟨e, he, rfl⟩ := entry_of_abs hm
  have hlt := num_lt hp.inv he
  suffices h : ∃ p', setPrm cv i m v p = .ok p' ∧ SameFrame p p' ∧
      getPrm cv i m p' = .ok (viaSlot cv e.kind v) ∧
      ∀ i' m' e', (m', some e') ∈ p.rule.map → ¬ (i' = i ∧ m' = m) → item p' i' e' = item p i' e' by
    obtain ⟨p', h1, h2, h3, h4⟩ := h
    refine ⟨p', h1, h2.wf hp, h2.rule, h2.sz, h3, ?_⟩
    intro T' cv' i' m' hi' hm' hne
    cases ha : abs p.rule m' with
    | none => exact absurd ha hm'
    | some w' =>
      obtain ⟨e', he', -⟩ := entry_of_abs ha
      rw [getPrm_item cv' p hp he' hi', getPrm_item cv' p' (h2.wf hp) (by rw [h2.rule]; exact he')
        (by rw [h2.sz]; exact hi'), h4 i' m' e' he' hne]
  unfold setPrm getPrm getEntry
  rw [find_of_mem hp.inv.keys he]
  simp only
  cases hk : e.kind with
  | float =>
    rw [hk] at hlt
    simp only
    rw [Arr.set_ok (by rw [hp.f]; exact idx_lt hlt hi)]
    refine ⟨_, rfl, ⟨rfl, rfl, rfl, rfl, rfl, rfl, rfl⟩, ?_, ?_⟩
    · simp only [find_of_mem hp.inv.keys he, hk]
      rw [Arr.get_ok (by show _ < p.f.len; rw [hp.f]; exact idx_lt hlt hi)]
      simp [viaSlot]
    · intro i' m' e' he' hne
      cases hk' : e'.kind <;> simp only [item, hk']
      congr 1
      exact if_neg (idx_ne hp.inv he' he hk' hk hne)
  | long =>
    rw [hk] at hlt
    simp only
    rw [Arr.set_ok (by rw [hp.i]; exact idx_lt hlt hi)]
    refine ⟨_, rfl, ⟨rfl, rfl, rfl, rfl, rfl, rfl, rfl⟩, ?_, ?_⟩
    · simp only [find_of_mem hp.inv.keys he, hk]
      rw [Arr.get_ok (by show _ < p.i.len; rw [hp.i]; exact idx_lt hlt hi)]
      simp [viaSlot]
    · intro i' m' e' he' hne
      cases hk' : e'.kind <;> simp only [item, hk']
      congr 2
      exact if_neg (idx_ne hp.inv he' he hk' hk hne)
  | short =>
    rw [hk] at hlt
    simp only
    rw [Arr.set_ok (by rw [hp.s]; exact idx_lt hlt hi)]
    refine ⟨_, rfl, ⟨rfl, rfl, rfl, rfl, rfl, rfl, rfl⟩, ?_, ?_⟩
    · simp only [find_of_mem hp.inv.keys he, hk]
      rw [Arr.get_ok (by show _ < p.s.len; rw [hp.s]; exact idx_lt hlt hi)]
      simp [viaSlot]
    · intro i' m' e' he' hne
      cases hk' : e'.kind <;> simp only [item, hk']
      congr 3
      exact if_neg (idx_ne hp.inv he' he hk' hk hne)
  | index =>
    rw [hk] at hlt
    simp only
    rw [Arr.set_ok (by rw [hp.t]; exact idx_lt hlt hi)]
    refine ⟨_, rfl, ⟨rfl, rfl, rfl, rfl, rfl, rfl, rfl⟩, ?_, ?_⟩
    · simp only [find_of_mem hp.inv.keys he, hk]
      rw [Arr.get_ok (by show _ < p.t.len; rw [hp.t]; exact idx_lt hlt hi)]
      simp [viaSlot]
    · intro i' m' e' he' hne
      cases hk' : e'.kind <;> simp only [item, hk']
      congr 4
      exact if_neg (idx_ne hp.inv he' he hk' hk hne)
  | copy =>
    refine ⟨p, rfl, .refl p, ?_, fun _ _ _ _ _ => rfl⟩
    simp [find_of_mem hp.inv.keys he, hk, viaSlot]

/-- **C11**: a `Param` built on any reachable rule has matching storage. -/
theorem C11_built {F : Type} (zero : F) (r : Rule) (h : Reachable r) (sz : Nat) :
    WF (mk zero r sz) ∧ (mk zero r sz).rule = r ∧ (mk zero r sz).sz = sz :=
  ⟨mk_wf zero h.inv sz, rfl, rfl⟩

/-- Conversions for `Integer` (here unbounded; `int64_t` in the code), floats
being integers for the purpose of the example. -/
def intConv : Conv Int Int where
  toF := id
  toI := BitVec.ofInt 64
  toS := BitVec.ofInt 16
  toT := BitVec.ofInt 64
  ofF := id
  ofI := BitVec.toInt
  ofS := BitVec.toInt
  ofT := fun x => x.toNat
  zero := 0

/-- **C11**: an integer in the range of the slot is returned unchanged. -/
theorem C11_in_range (k : Kind) (v : Int)
    (h : match k with
      | .long => -2 ^ 63 ≤ v ∧ v < 2 ^ 63
      | .short => -2 ^ 15 ≤ v ∧ v < 2 ^ 15
      | .index => 0 ≤ v ∧ v < 2 ^ 64
      | .float => True
      | .copy => False) : viaSlot intConv k v = v := by
  cases k with
  | long => simp only [viaSlot, intConv, BitVec.toInt_ofInt]; exact Int.bmod_eq_of_le (by simp at h ⊢; omega) (by simp at h ⊢; omega)
  | short => simp only [viaSlot, intConv, BitVec.toInt_ofInt]; exact Int.bmod_eq_of_le (by simp at h ⊢; omega) (by simp at h ⊢; omega)
  | index =>
    simp only [viaSlot, intConv, BitVec.toNat_ofInt]
    simp only at h
    rw [Int.toNat_of_nonneg (Int.emod_nonneg _ (by simp))]
    exact Int.emod_eq_of_lt h.1 (by simpa using h.2)
  | float => rfl
  | copy => exact absurd h (by simp)

/-- Two items of the default rule at two traces. -/
example : ∃ r, ctor [] true true true = .ok r ∧ Reachable r ∧ abs r 26 = some (.long, 189, 0) ∧
    abs r 29 = some (.short, 203, 0) ∧ (0 : Nat) < (mk (0 : Int) r 2).sz := by
  refine ⟨_, rfl, Reach.ctor (ms := []) (full := true) (d := true) (e := true) rfl trivial, by decide,
    by decide, by decide⟩

/-! ## C12 -/

theorem setWidth_signExtend (v : BitVec 64) (h : -2 ^ 31 ≤ v.toInt ∧ v.toInt < 2 ^ 31) :
    (v.setWidth 32).signExtend 64 = v := by
  apply BitVec.eq_of_toInt_eq
  rw [BitVec.toInt_signExtend_of_le (by omega), BitVec.toInt_setWidth,
    ← BitVec.toInt_bmod_cancel v]
  have h64 : v.toInt = (v.toNat : Int).bmod (2 ^ 64) := BitVec.toInt_eq_toNat_bmod v
  have hlt := v.isLt
  rw [BitVec.toInt_bmod_cancel]
  rw [BitVec.toInt_eq_toNat_cond] at h ⊢
  simp only [Int.bmod]
  split at h <;> split <;> omega

/-- Value or default of a result. -/
def okOr {α : Type} (d : α) : Res α → α
  | .ok a => a
  | _ => d

/-- **C12**: for a reachable full-extent rule whose items occupy distinct header
bytes, inserting the parameters of `sz` traces into a buffer of headers `stride`
bytes apart and extracting them into any matching `Param` returns every 16-bit
item, and every integer item within 32 bits, unchanged at every trace; traces
outside the range keep their items; and every byte of the buffer that is not named by the rule keeps its value
(if the rule carries raw headers: takes the raw header's value inside the
240-byte header).  Hypotheses on floats: each held value can be converted. -/
theorem C12_roundtrip {F : Type} (ops : FloatOps F) (p q : Param F) (b : Arr Byte)
    (sz stride skip skip' : Nat) (hreach : Reachable p.rule) (hp : WF p) (hq : WF q)
    (hqr : q.rule = p.rule) (hl : HdrLayout p.rule) (hfull : p.rule.fullextent = true)
    (hsz : sz + skip ≤ p.sz) (hsz' : sz + skip' ≤ q.sz) (hb : (240 + stride) * sz ≤ b.len)
    (hb' : b.len ≤ 2 ^ 64)
    (hlong : ∀ x, x < p.i.len → -2 ^ 31 ≤ (p.i.val x).toInt ∧ (p.i.val x).toInt < 2 ^ 31)
    (hfs : ∀ x, x < p.f.len → ∃ s, ops.findScalar (p.f.val x) = .ok s)
    (hen : ∀ x, x < p.f.len → ∀ s, ∃ n, ops.encode (p.f.val x) s = .ok n) :
    ∃ b' q', insertParam ops sz p b stride skip = .ok (b', p.rule) ∧
      extractParam ops sz b' 0 q stride skip' = .ok q' ∧ WF q' ∧ q'.rule = q.rule ∧
      (∀ (T : Type) (cv : Conv F T) t m w, t < sz → abs p.rule m = some w →
        (w.1 = .short ∨ w.1 = .long) → getPrm cv (t + skip') m q' = getPrm cv (t + skip) m p) ∧
      (∀ (T : Type) (cv : Conv F T) row m, abs p.rule m ≠ none → row < q.sz →
        ¬ (skip' ≤ row ∧ row < sz + skip') → getPrm cv row m q' = getPrm cv row m q) ∧
      b'.len = b.len ∧
      (∀ t, t < sz → ∀ o, o < 240 → ¬ Named p.rule ((240 + stride) * t) ((240 + stride) * t + o) →
        b'.val ((240 + stride) * t + o) =
          if p.rule.cnt .copy ≠ 0 then p.c.val ((t + skip) * 240 + o) else b.val ((240 + stride) * t + o)) ∧
      (∀ x, (∀ t, t < sz → ¬ ((240 + stride) * t ≤ x ∧ x < (240 + stride) * t + 240)) →
        b'.val x = b.val x) := by
  have hst := reach_start hreach hfull
  obtain ⟨b', e1, e2, e3, e4, e5⟩ := insertParam_spec ops (fun v => okOr 1#16 (ops.findScalar v))
    (fun v s => okOr 0#32 (ops.encode v s)) p hp hl stride skip sz
    (fun x hx => by obtain ⟨s, h⟩ := hfs x hx; rw [h]; rfl)
    (fun x hx s => by obtain ⟨n, h⟩ := hen x hx s; rw [h]; rfl) hfull hst b hsz hb hb'
  obtain ⟨q', f1, f2, f3, f4, f5, f6, f7, f8⟩ := extractParam_spec ops b' 0 sz stride skip' q hq
    (by rw [hqr]; exact hl) (by rw [hqr]; exact hfull) (by rw [hqr]; exact hst) hsz' (by omega) (by omega)
  have hwf := f2.wf hq f3
  refine ⟨b', q', e1, f1, hwf, f2.rule, ?_, ?_, e2, e4, e5⟩
  · intro T cv t m w ht hm hk
    obtain ⟨e, he, rfl⟩ := entry_of_abs hm
    have hlt := num_lt hp.inv he
    have hk : e.kind = .short ∨ e.kind = .long := hk
    rw [getPrm_item cv p hp he (by omega), getPrm_item cv q' hwf (by rw [f2.rule, hqr]; exact he)
      (by rw [f2.sz]; omega)]
    congr 2
    have d := f4 t ht m e (by rw [hqr]; exact he)
    have g := e3 t ht m e he
    rw [Nat.zero_add] at d
    rcases hk with hk | hk
    · have d1 := d.1 hk
      rw [g.1 hk] at d1
      simp only [item, hk]
      rw [Nat.mul_comm _ (t + skip'), Nat.mul_comm _ (t + skip), d1]
    · have d1 := d.2.1 hk
      rw [g.2.1 hk, setWidth_signExtend _ (hlong _ ?_)] at d1
      · simp only [item, hk]
        rw [Nat.mul_comm _ (t + skip'), Nat.mul_comm _ (t + skip), d1]
      · rw [hk] at hlt
        rw [hp.i, Nat.mul_comm (t + skip)]
        exact idx_lt hlt (by omega)
  · intro T cv row m hm hrow hne
    cases ha : abs p.rule m with
    | none => exact absurd ha hm
    | some w =>
      obtain ⟨e, he, -⟩ := entry_of_abs ha
      have he' : (m, some e) ∈ q.rule.map := by rw [hqr]; exact he
      rw [getPrm_item cv q hq he' hrow, getPrm_item cv q' hwf (by rw [f2.rule]; exact he')
        (by rw [f2.sz]; exact hrow)]
      cases hk : e.kind <;> simp only [item, hk, ofItem, f2.rule, f2.t]
      · rw [Nat.mul_comm, f5.2.1 _ fun row' m' e'' h1 h2 h3 h4 => row_ne hq.inv he' h3 hk h4 (by omega)]
      · rw [Nat.mul_comm, f5.1 _ fun row' m' e'' h1 h2 h3 h4 => row_ne hq.inv he' h3 hk h4 (by omega)]
      · rw [Nat.mul_comm, f5.2.2 _ fun row' m' e'' h1 h2 h3 h4 => row_ne hq.inv he' h3 hk h4 (by omega)]

/-- Rules made of the items of the library's own table and index items. -/
def KnownOnly (r : Rule) : Prop := ∀ m v, abs r m = some v → v.1 = .index ∨ known m = some v

theorem known_lt {m : Nat} {v : Val} (h : known m = some v) : m < 30 := by
  unfold known at h
  split at h <;> first | omega | cases h

def tableOk : Bool :=
  (List.range 30).all fun m => (List.range 30).all fun m' =>
    match known m, known m' with
    | some (k, loc, scal), some (k', loc', scal') =>
      let val := fun (k : Kind) => k == .long || k == .short || k == .float
      let dj := fun a la b lb => decide (a + la ≤ b) || decide (b + lb ≤ a)
      (!val k || (decide (1 ≤ loc) && decide (loc + width k ≤ 241))) &&
      (!(k == .float) || (decide (1 ≤ scal) && decide (scal + 2 ≤ 241))) &&
      (m == m' || !val k || !val k' || dj loc (width k) loc' (width k')) &&
      (!val k || !(k' == .float) || dj loc (width k) scal' 2) &&
      (!(k == .float) || !(k' == .float) || scal == scal' || dj scal 2 scal' 2)
    | _, _ => true

theorem tableOk_true : tableOk = true := by decide +kernel

/-- **C12**: the library's own items occupy distinct header bytes, in every
combination. -/
theorem C12_known_layout (r : Rule) (hr : Inv r) (h : KnownOnly r) : HdrLayout r := by
  have key : ∀ m e, (m, some e) ∈ r.map → Valued e.kind → known m = some (e.kind, e.loc, e.scalLoc) := by
    intro m e hm hv
    have ha : abs r m = some (entryVal e) := by
      unfold abs; rw [find_of_mem hr.keys hm]
    rcases h m _ ha with h1 | h1
    · have h1 : e.kind = .index := h1
      rcases hv with h2 | h2 | h2 <;> rw [h1] at h2 <;> cases h2
    · exact h1
  have tab : ∀ m e m' e', (m, some e) ∈ r.map → (m', some e') ∈ r.map → Valued e.kind → Valued e'.kind →
      _ := fun m e m' e' hm hm' hv hv' => by
    have h1 := key m e hm hv
    have h2 := key m' e' hm' hv'
    have h3 := tableOk_true
    unfold tableOk at h3
    rw [List.all_eq_true] at h3
    have h4 := h3 m (List.mem_range.mpr (known_lt h1))
    rw [List.all_eq_true] at h4
    have h5 := h4 m' (List.mem_range.mpr (known_lt h2))
    rw [h1, h2] at h5
    exact h5
  refine ⟨?_, ?_, ?_, ?_, ?_⟩
  · intro m e hm hv
    have := tab m e m e hm hm hv hv
    rcases hv with hk | hk | hk <;> rw [hk] at this ⊢ <;> simp at this <;> simp [width] at this ⊢ <;> omega
  · intro m e hm hk
    have := tab m e m e hm hm (by simp [Valued, hk]) (by simp [Valued, hk])
    rw [hk] at this
    simp at this
    simp [width] at this ⊢; omega
  · intro m e m' e' hm hm' hne hv hv'
    have := tab m e m' e' hm hm' hv hv'
    rcases hv with hk | hk | hk <;> rcases hv' with hk' | hk' | hk' <;> rw [hk, hk'] at this ⊢ <;>
      simp [hne] at this <;> simp [DisjF] <;> omega
  · intro m e m' e' hm hm' hv hk'
    have := tab m e m' e' hm hm' hv (by simp [Valued, hk'])
    rcases hv with hk | hk | hk <;> rw [hk, hk'] at this <;> simp at this <;>
      simp [DisjF, hk] <;> omega
  · intro m e m' e' hm hm' hk hk'
    have := tab m e m' e' hm hm' (by simp [Valued, hk]) (by simp [Valued, hk'])
    rw [hk, hk'] at this
    simp at this
    simp [DisjF]; omega

/-- The default rule with extras satisfies the hypotheses. -/
example : ∃ r, ctor [0] true true true = .ok r ∧ Reachable r ∧ KnownOnly r ∧ HdrLayout r ∧
    r.fullextent = true := by
  have hr : ∃ r, ctor [0] true true true = .ok r := ⟨_, rfl⟩
  obtain ⟨r, h⟩ := hr
  have hreach : Reachable r := Reach.ctor h trivial
  have hk : KnownOnly r := by
    have hm : ∀ p ∈ r.map, ∃ e, p.2 = some e ∧ (e.kind = .index ∨ known p.1 = some (entryVal e)) := by
      cases h; decide +kernel
    intro m v hv
    obtain ⟨e, he, rfl⟩ := entry_of_abs hv
    obtain ⟨e', h1, h2⟩ := hm _ he
    cases h1
    exact h2
  exact ⟨r, h, hreach, hk, C12_known_layout r hreach.inv hk, by cases h; rfl⟩

/-! ## C13: bytes touched -/

theorem extEntry_low {F : Type} (ops : FloatOps F) (b : Arr Byte) (row start : Nat) (p : Param F)
    (hb : b.len < 2 ^ 64) (e : Entry) (hv : e.kind ≠ .index ∧ e.kind ≠ .copy) (he : e.min = start)
    (hs : start < 2 ^ 64) : ∀ p', extEntry ops b row start 0 p (some e) ≠ .ok p' := by
  have hrel : relLoc start start = 2 ^ 64 - 1 := by
    unfold relLoc
    have : sub64 start start = 0 := by rw [sub64_eq (Nat.le_refl _) hs]; omega
    rw [this]; decide
  have hub : ∀ c, c = 2 ^ 64 - 1 → rd b (0 + c) = .ub := by
    intro c hc
    unfold rd
    rw [Arr.get_ub]; omega
  have h16 : ∀ c, c = 2 ^ 64 - 1 → rd16 b (0 + c) = .ub := fun c hc => by
    unfold rd16; rw [hub c hc]; rfl
  have h32 : ∀ c, c = 2 ^ 64 - 1 → rd32 b (0 + c) = .ub := fun c hc => by
    unfold rd32; rw [hub c hc]; rfl
  intro p' h
  unfold extEntry at h
  cases hk : e.kind with
  | short =>
    simp only [Entry.min, hk] at he
    simp only [hk] at h
    rw [he, h16 _ hrel] at h; cases h
  | long =>
    simp only [Entry.min, hk] at he
    simp only [hk] at h
    rw [he, h32 _ hrel] at h; cases h
  | float =>
    simp only [Entry.min, hk] at he
    simp only [hk] at h
    obtain ⟨s, h1, h⟩ := bind_ok_inv h
    obtain ⟨n, h2, h⟩ := bind_ok_inv h
    rcases Nat.le_total e.scalLoc e.loc with hle | hle
    · have : Nat.min e.scalLoc e.loc = e.scalLoc := Nat.min_eq_left hle
      rw [this] at he
      rw [he, h16 _ hrel] at h1; cases h1
    · have : Nat.min e.scalLoc e.loc = e.loc := Nat.min_eq_right hle
      rw [this] at he
      rw [he, h32 _ hrel] at h2; cases h2
  | index => exact hv.1 hk
  | copy => exact hv.2 hk

theorem extEntry_frame {F : Type} {ops : FloatOps F} {b : Arr Byte} {row start base : Nat} {p p' : Param F}
    {o : Option Entry} (h : extEntry ops b row start base p o = .ok p') : p'.rule = p.rule := by
  unfold extEntry at h
  split at h
  · cases h
  · split at h
    · obtain ⟨_, _, h⟩ := bind_ok_inv h
      obtain ⟨_, _, h⟩ := bind_ok_inv h
      obtain ⟨_, _, h⟩ := bind_ok_inv h
      cases h; rfl
    · obtain ⟨_, _, h⟩ := bind_ok_inv h
      obtain ⟨_, _, h⟩ := bind_ok_inv h
      cases h; rfl
    · obtain ⟨_, _, h⟩ := bind_ok_inv h
      obtain ⟨_, _, h⟩ := bind_ok_inv h
      cases h; rfl
    · cases h; rfl

/-- **C13** refuted (bytes): for *every* rule that does not cover the full header
(and never held a header copy, with at least one field, fields inside the
header), extracting even one header from *any* buffer reads the byte before the
buffer: it never completes without undefined behaviour. -/
theorem C13_bytes_refuted {F : Type} (ops : FloatOps F) (r : Rule) (h : ReachNoCopy r)
    (hfull : r.fullextent = false) (hne : fields r.map ≠ [])
    (hloc : ∀ f ∈ fields r.map, f.1 ≤ 240 ∧ f.1 ≤ f.2 ∧ f.2 < 2 ^ 64)
    (p : Param F) (hp : p.rule = r) (hcopy : r.cnt .copy = 0) (b : Arr Byte) (hb : b.len < 2 ^ 64)
    (stride skip n : Nat) :
    ∀ p', extractParam ops (n + 1) b 0 p stride skip ≠ .ok p' := by
  intro p' hx
  unfold extractParam at hx
  rw [if_neg (by omega)] at hx
  have hraw : rawOut b 0 (n + 1) stride skip p = .ok p := by
    unfold rawOut; rw [hp, if_neg (by simp [hcopy])]
  rw [hraw, Res.ok_bind] at hx
  unfold extLoop at hx
  rw [hp] at hx
  obtain ⟨⟨r', ext⟩, h1, hx⟩ := bind_ok_inv hx
  simp only at hx
  obtain ⟨p1, h2, _⟩ := bind_ok_inv hx
  -- the window
  have hmap : r'.map = r.map := by
    obtain ⟨r'', n'', e1, _, e3, _⟩ := extent_spec h.inv
    rw [h1] at e1; cases e1; exact e3
  have hstart : ∃ t, extentLoop 240 0 r.map = .ok (r'.start, t) := by
    unfold extent at h1
    rw [hfull] at h1
    simp only [Bool.false_eq_true, if_false] at h1
    cases hbad : r.badextent with
    | true =>
      rw [hbad, if_pos rfl] at h1
      obtain ⟨⟨s, t⟩, e1, e2⟩ := bind_ok_inv h1
      cases e2
      exact ⟨t, e1⟩
    | false =>
      rw [hbad] at h1
      simp only [Bool.false_eq_true, if_false] at h1
      cases h1
      exact ⟨_, h.fresh hfull hbad⟩
  obtain ⟨t, ht⟩ := hstart
  obtain ⟨s1, s2, s3, s4, s5⟩ := extentLoop_spec _ _ _ _ _ ht
  obtain ⟨f0, hf0⟩ := List.exists_mem_of_ne_nil _ hne
  have l0 := hloc f0 hf0
  have c0 := s3 f0 hf0
  have hs : ∃ f ∈ fields r.map, f.1 = r'.start := by
    rcases s4 with h4 | h4
    · exact ⟨f0, hf0, by omega⟩
    · exact h4
  obtain ⟨f, hf, hfe⟩ := hs
  obtain ⟨⟨m, o⟩, hm, ho⟩ := List.mem_filterMap.mp hf
  obtain ⟨e, he⟩ := h.inv.nonull _ hm
  simp only at he; subst he
  simp only at ho
  have hki : e.kind ≠ .index := fun hk => by simp [hk] at ho
  simp only [hki, if_false, Option.some.injEq] at ho
  subst ho
  simp only at hfe
  have hkc : e.kind ≠ .copy := by
    intro hk
    have := num_lt h.inv hm
    rw [hk, hcopy] at this; omega
  rw [show 0 + (ext + stride) * 0 = 0 by omega] at h2
  -- the loop cannot get past this entry
  have loop : ∀ (l : Map) (q q' : Param F), (m, some e) ∈ l →
      extEntries ops b (0 + skip) r'.start 0 q l ≠ .ok q' := by
    intro l
    induction l with
    | nil => intro q q' hmem; simp at hmem
    | cons x l ih =>
      intro q q' hmem hh
      obtain ⟨m', o'⟩ := x
      unfold extEntries at hh
      obtain ⟨q1, g1, g2⟩ := bind_ok_inv hh
      rcases List.mem_cons.mp hmem with hmem | hmem
      · cases hmem
        exact extEntry_low ops b _ _ q hb e ⟨hki, hkc⟩ hfe (by omega) q1 g1
      · exact ih q1 q' hmem g2
  exact loop _ _ _ (by rw [hmap]; exact hm) h2

/-- The hypotheses are met by the rule holding the source and receiver x. -/
example : ∃ r, ctor [20, 22] false false false = .ok r ∧ ReachNoCopy r ∧ r.fullextent = false ∧
    fields r.map = [(71, 85), (71, 77)] ∧ r.cnt .copy = 0 :=
  ⟨_, rfl, Reach.ctor (ms := [20, 22]) (full := false) (d := false) (e := false) rfl rfl, rfl, rfl, rfl⟩

/-- Float conversions that always succeed, for examples without floats. -/
def noFloat : FloatOps Unit := ⟨fun _ => .ok 1#16, fun _ _ => .ok 0#32, fun _ _ => ()⟩

/-- **C13** refuted for writing: one inline number written through a rule of its
own (window of 4 bytes) is stored starting at the byte before the buffer; for
the second of two traces it would overwrite the end of the first. -/
theorem C13_insert_refuted :
    ∃ r, ctor [26] false false false = .ok r ∧
      insertParam noFloat 1 (mk () r 1) (.fill 4 0#8) 0 0 = .ub ∧
      insTrace noFloat (mk () r 2) 1 r.start 4 (.fill 8 0xFF#8) =
        (Arr.fill 8 0xFF#8).writes 3 [0#8, 0#8, 0#8, 0#8] :=
  ⟨_, rfl, rfl, rfl⟩

/-! ## C16 -/

/-- **C16** (part): copying parameters makes every item known to both rules *with
the same kind* equal (whatever type it is read as; raw headers byte by byte) and
leaves every other position of the destination alone.  If the source carries raw
headers the destination's rule must be a full-extent rule with distinct fields,
because it is first filled from the raw header (`C13_bytes_refuted` otherwise).
Missing from the full statement: items whose kinds differ
(`C16_kind_refuted`). -/
theorem C16_copy_partial {F : Type} (ops : FloatOps F) (src dst : Param F) (hs : WF src) (hd : WF dst)
    (j k : Nat) (hj : j < src.sz) (hk : k < dst.sz) (same : Bool) (hsame : same = true → src.rule = dst.rule)
    (hraw : src.rule.cnt .copy ≠ 0 → HdrLayout dst.rule ∧ dst.rule.fullextent = true ∧
      dst.rule.start = 0 ∧ src.c.len ≤ 2 ^ 64) :
    ∃ dst', cpyPrm ops j src k dst same = .ok dst' ∧ WF dst' ∧ dst'.rule = dst.rule ∧ dst'.sz = dst.sz ∧
      (∀ m v v', abs src.rule m = some v → abs dst.rule m = some v' → v.1 = v'.1 →
        (∀ (T : Type) (cv : Conv F T), getPrm cv k m dst' = getPrm cv j m src) ∧
        (v.1 = .copy → ∀ o, o < 240 → dst'.c.val (k * 240 + o) = src.c.val (j * 240 + o))) ∧
      (∀ m row, abs dst.rule m ≠ none → row < dst.sz → row ≠ k →
        (∀ (T : Type) (cv : Conv F T), getPrm cv row m dst' = getPrm cv row m dst)) ∧
      (∀ row, row ≠ k → ∀ o, o < 240 → dst'.c.val (row * 240 + o) = dst.c.val (row * 240 + o)) := by
  -- filling from the raw header
  have hfill : ∃ d0, cpyRaw ops j src k dst = .ok d0 ∧ WF d0 ∧ d0.rule = dst.rule ∧ d0.sz = dst.sz ∧
      (src.rule.cnt .copy ≠ 0 → dst.rule.cnt .copy ≠ 0 →
        ∀ o, o < 240 → d0.c.val (k * 240 + o) = src.c.val (j * 240 + o)) ∧
      (∀ row, row ≠ k → ∀ o, o < 240 → d0.c.val (row * 240 + o) = dst.c.val (row * 240 + o)) ∧
      (∀ m e row, (m, some e) ∈ dst.rule.map → row ≠ k → item d0 row e = item dst row e) := by
    unfold cpyRaw
    by_cases hc : src.rule.cnt .copy ≠ 0
    · rw [if_pos hc]
      obtain ⟨r1, r2, r3, r4⟩ := hraw hc
      have hcl := hs.c
      rw [if_pos hc] at hcl
      obtain ⟨q', f1, f2, f3, -, f5, f6, f7, f8⟩ := extractParam_spec ops src.c (j * 240) 1 0 k dst hd r1 r2 r3
        (by omega) (by omega) r4
      have f7' : ∀ row, row ≠ k → ∀ o, o < 240 → q'.c.val (row * 240 + o) = dst.c.val (row * 240 + o) := by
        intro row hne o ho
        exact f7 _ fun t ht hh => hne (by omega)
      refine ⟨q', f1, f2.wf hd f3, f2.rule, f2.sz, ?_, f7', ?_⟩
      · intro _ hdc o ho
        have := f8 hdc 0 (by omega) o ho
        simpa using this
      · intro m e row hm hne
        cases hk' : e.kind <;> simp only [item, hk', f2.rule, f2.t]
        · rw [Nat.mul_comm, f5.2.1 _ fun row' m' e'' h1 h2 h3 h4 => row_ne hd.inv hm h3 hk' h4 (by omega)]
        · rw [Nat.mul_comm, f5.1 _ fun row' m' e'' h1 h2 h3 h4 => row_ne hd.inv hm h3 hk' h4 (by omega)]
        · rw [Nat.mul_comm, f5.2.2 _ fun row' m' e'' h1 h2 h3 h4 => row_ne hd.inv hm h3 hk' h4 (by omega)]
        · congr 4
          apply List.map_congr_left
          intro o ho
          exact f7' row hne o (List.mem_range.mp ho)
    · rw [if_neg hc]
      exact ⟨dst, rfl, hd, rfl, rfl, fun h => absurd h hc, fun _ _ _ _ => rfl, fun _ _ _ _ _ => rfl⟩
  obtain ⟨d0, g1, g2, g3, g4, g5, g6, g7⟩ := hfill
  -- the copy proper
  have hcpy : ∃ d1, (if same then cpyRows j src k d0 else cpyEntries j k src d0 src.rule.map) = .ok d1 ∧
      SameFrame d0 d1 ∧
      (∀ m se de, (m, some se) ∈ src.rule.map → (m, some de) ∈ d0.rule.map → de.kind = se.kind →
        se.kind ≠ .copy → item d1 k de = item src j se) ∧
      (∀ row m e, (m, some e) ∈ d0.rule.map → row ≠ k → item d1 row e = item d0 row e) := by
    cases same with
    | true =>
      rw [if_pos rfl]
      obtain ⟨d1, c1, c2, c3, c4⟩ := cpyRows_spec j k src d0 hs g2 hj (by omega) (by rw [g3]; exact hsame rfl)
      refine ⟨d1, c1, c2, ?_, c4⟩
      intro m se de hse hde _ hkc
      have : se = de := by
        rw [g3, ← hsame rfl] at hde
        have h1 := find_of_mem hs.inv.keys hse
        rw [find_of_mem hs.inv.keys hde] at h1
        cases h1; rfl
      subst this
      exact c3 m se hde hkc
    | false =>
      simp only [Bool.false_eq_true, if_false]
      obtain ⟨d1, c1, c2, c3, c4⟩ := cpyEntries_spec j k src hs hj src.rule.map d0 g2 (by omega)
        (fun x h => h) hs.inv.keys
      exact ⟨d1, c1, c2, c3, fun row m e hm hne => c4 row m e hm fun h => absurd h hne⟩
  obtain ⟨d1, c1, c2, c3, c4⟩ := hcpy
  have hwf := c2.wf g2
  refine ⟨d1, ?_, hwf, c2.rule.trans g3, c2.sz.trans g4, ?_, ?_, ?_⟩
  · unfold cpyPrm; rw [g1, Res.ok_bind, c1]
  · intro m v v' hv hv' hkk
    obtain ⟨se, hse, rfl⟩ := entry_of_abs hv
    obtain ⟨de, hde, rfl⟩ := entry_of_abs hv'
    have hkk : se.kind = de.kind := hkk
    have hde0 : (m, some de) ∈ d0.rule.map := by rw [g3]; exact hde
    refine ⟨?_, ?_⟩
    · intro T cv
      rw [getPrm_item cv src hs hse hj, getPrm_item cv d1 hwf (by rw [c2.rule]; exact hde0)
        (by rw [c2.sz, g4]; exact hk)]
      by_cases hc : se.kind = .copy
      · have hc' : de.kind = .copy := by rw [← hkk]; exact hc
        simp [item, hc, hc', ofItem]
      · rw [c3 m se de hse hde0 hkk.symm hc]
    · intro hc o ho
      have hc : se.kind = .copy := hc
      have n1 := num_lt hs.inv hse
      have n2 := num_lt hd.inv hde
      rw [hc] at n1; rw [← hkk, hc] at n2
      rw [c2.c]
      exact g5 (by omega) (by omega) o ho
  · intro m row hm hrow hne T cv
    cases ha : abs dst.rule m with
    | none => exact absurd ha hm
    | some w =>
      obtain ⟨e, he, -⟩ := entry_of_abs ha
      have he0 : (m, some e) ∈ d0.rule.map := by rw [g3]; exact he
      rw [getPrm_item cv dst hd he hrow, getPrm_item cv d1 hwf (by rw [c2.rule]; exact he0)
        (by rw [c2.sz, g4]; exact hrow), c4 row m e he0 hne, g7 m e row he hne]
  · intro row hne o ho
    rw [c2.c]; exact g6 row hne o ho

/-- Two different rules sharing the inline number; neither carries raw headers. -/
example : ∃ r r', ctor [26, 5] true false false = .ok r ∧ ctor [26] true false false = .ok r' ∧
    WF (mk (0 : Int) r 3) ∧ WF (mk (0 : Int) r' 2) ∧ r.cnt .copy = 0 ∧ abs r 26 = abs r' 26 ∧
    abs r 26 = some (.long, 189, 0) := by
  refine ⟨_, _, rfl, rfl, mk_wf _ (Reach.inv (P := fun _ => True)
    (Reach.ctor (ms := [26, 5]) (full := true) (d := false) (e := false) rfl trivial)) _,
    mk_wf _ (Reach.inv (P := fun _ => True)
    (Reach.ctor (ms := [26]) (full := true) (d := false) (e := false) rfl trivial)) _, rfl, rfl, rfl⟩

/-- **C16** refuted for an item held as 32-bit integer by one rule and as 16-bit
integer by the other: the destination keeps its old value. -/
theorem C16_kind_refuted :
    ∃ r r' s d d', ctor [26] true false false = .ok r ∧
      (do let x ← ctor [] true false false; addShort x 26 189) = .ok r' ∧
      setPrm intConv 0 26 7 (mk (0 : Int) r 1) = .ok s ∧ mk (0 : Int) r' 1 = d ∧
      cpyPrm ⟨fun _ => .ok 1#16, fun _ _ => .ok 0#32, fun _ _ => 0⟩ 0 s 0 d false = .ok d' ∧
      getPrm intConv 0 26 s = .ok 7 ∧ getPrm intConv 0 26 d' = .ok 0 :=
  ⟨_, _, _, _, _, rfl, rfl, rfl, rfl, rfl, rfl, rfl⟩

end Verif.Params
