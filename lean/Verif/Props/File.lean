import Verif.File.Lemmas
import Verif.Props.Param
/-!
# C20, C22, C23, C24: reading and writing traces
-/
namespace Verif.Files
open Verif.Rules Verif.Params Verif.Endian Verif.Layout

theorem loadF_ok {m : Arr Byte} {i : Nat} (h : 4 * i + 4 ≤ m.len) : loadF m i = .ok (sample m i) := by
  unfold loadF bytes4
  rw [Arr.get_ok (by omega), Res.ok_bind, Arr.get_ok (by omega), Res.ok_bind, Arr.get_ok (by omega), Res.ok_bind,
    Arr.get_ok (by omega), Res.ok_bind]
  rfl

/-! ## C20 -/

/-- One call of a write function. -/
structure WOp (F : Type) where
  w : Where
  sz : Nat
  trc : Option (Arr Byte)
  prm : Option (Param F)
  skip : Nat

/-- The call is within its contract: the traces are below `N` and in increasing
order, the file of `N` traces is smaller than `2^63` bytes, the caller's memory
holds `sz` traces, the parameters can be converted and have the rows used, and
not both arguments are null. -/
structure WOp.Ok {F : Type} (ops : FloatOps F) (ns N : Nat) (o : WOp F) : Prop where
  small : Small ns o.w o.sz N
  inc : Inc o.w o.sz
  trc : ∀ t, o.trc = some t → 4 * (ns * o.sz) ≤ t.len ∧ t.len ≤ 2 ^ 63
  prm : ∀ p, o.prm = some p → PrmOk ops p ∧ o.sz + o.skip ≤ p.sz
  any : o.trc ≠ none ∨ o.prm ≠ none

/-- The read is within its contract. -/
structure ROk {F : Type} (ns N : Nat) (w : Where) (sz : Nat) (trc : Option (Arr Byte)) (prm : Option (Param F))
    (skip : Nat) (d : Disk) : Prop where
  small : Small ns w sz N
  ndec : Ndec w sz
  size : ∀ i, i < sz → 3600 + (w.trace i + 1) * (240 + 4 * ns) ≤ d.size
  trcOk : ∀ t, trc = some t → 4 * (ns * sz) ≤ t.len ∧ t.len ≤ 2 ^ 63
  prmOk : ∀ p, prm = some p → RdOk p ∧ sz + skip ≤ p.sz
  any : trc ≠ none ∨ prm ≠ none

theorem ROk.blocks {F : Type} {ns N : Nat} {w : Where} {sz : Nat} {trc : Option (Arr Byte)} {prm : Option (Param F)}
    {skip : Nat} {d : Disk} (h : ROk ns N w sz trc prm skip d) (i : Nat) (hi : i < sz) :
    taddr ns (w.trace i) + (240 + 4 * ns) ≤ d.size := by
  have := h.size i hi
  rw [Nat.succ_mul] at this
  unfold taddr
  omega

/-- A sequence of write calls. -/
def runW {F : Type} (ops : FloatOps F) (ns : Nat) : Disk → List (WOp F) → Res Disk
  | d, [] => .ok d
  | d, o :: l => do
    let (d, _) ← writeTraceT ops ns o.w o.sz o.trc o.prm o.skip d
    runW ops ns d l

/-- The call writes the samples of trace `k`. -/
def WOp.samplesAt {F : Type} (o : WOp F) (k : Nat) : Prop := o.trc ≠ none ∧ ∃ i, i < o.sz ∧ o.w.trace i = k
/-- The call writes the header of trace `k`. -/
def WOp.headerAt {F : Type} (o : WOp F) (k : Nat) : Prop := o.prm ≠ none ∧ ∃ i, i < o.sz ∧ o.w.trace i = k

/-- Two positions of the file lie in different traces, or in different parts of one. -/
theorem apart {ns k k' a b c e x : Nat} (hx : taddr ns k + a ≤ x ∧ x < taddr ns k + b) (hb : b ≤ 240 + 4 * ns)
    (he : e ≤ 240 + 4 * ns) (h : k = k' → b ≤ c ∨ e ≤ a) : ¬ (taddr ns k' + c ≤ x ∧ x < taddr ns k' + e) := by
  rcases Nat.lt_trichotomy k k' with h1 | h1 | h1
  · have := taddr_le (ns := ns) h1; omega
  · subst h1; have := h rfl; omega
  · have := taddr_le (ns := ns) h1; omega

theorem write_keeps {F : Type} {ops : FloatOps F} {ns N : Nat} {o : WOp F} (h : o.Ok ops ns N) (d : Disk) :
    ∃ d', writeTraceT ops ns o.w o.sz o.trc o.prm o.skip d = .ok (d', o.trc) ∧ d.size ≤ d'.size ∧
      (∀ k, ¬ o.samplesAt k → ∀ x, taddr ns k + 240 ≤ x ∧ x < taddr ns k + (240 + 4 * ns) → d'.byte x = d.byte x) ∧
      (∀ k, ¬ o.headerAt k → ∀ x, taddr ns k + 0 ≤ x ∧ x < taddr ns k + 240 → d'.byte x = d.byte x) ∧
      (∀ t, o.trc = some t → ∀ i s, i < o.sz → s < ns → dsamp d' ns (o.w.trace i) s = sample t (i * ns + s)) ∧
      (∀ p, o.prm = some p → ∀ i, i < o.sz →
        Header (fsOf ops) (enOf ops) p (i + o.skip) (dhdr d' ns (o.w.trace i))) := by
  obtain ⟨d', e1, e2, e3, e4, e5, -, -⟩ := write_spec ops ns o.w o.sz o.trc o.prm o.skip d N h.small h.inc h.trc h.prm
    h.any
  refine ⟨d', e1, e5, ?_, ?_, e2, e3⟩
  · intro k hk x hx
    refine e4 x fun i hi => ⟨fun _ => ?_, fun ht => ?_⟩
    · exact apart (c := 0) hx (by omega) (by omega) fun _ => Or.inr (by omega)
    · have := apart (k' := o.w.trace i) (c := 240) (e := 240 + 4 * ns) hx (by omega) (by omega)
        fun he => absurd ⟨ht, i, hi, he.symm⟩ hk
      rw [← Nat.add_assoc] at this
      exact this
  · intro k hk x hx
    refine e4 x fun i hi => ⟨fun hp => ?_, fun _ => ?_⟩
    · exact apart (k' := o.w.trace i) (c := 0) hx (by omega) (by omega)
        fun he => absurd ⟨hp, i, hi, he.symm⟩ hk
    · have := apart (k' := o.w.trace i) (c := 240) (e := 240 + 4 * ns) hx (by omega) (by omega)
        fun _ => Or.inl (by omega)
      rw [← Nat.add_assoc] at this
      exact this

theorem runW_keeps {F : Type} {ops : FloatOps F} {ns N : Nat} (l : List (WOp F)) : ∀ (d : Disk),
    (∀ o ∈ l, o.Ok ops ns N) →
    ∃ d', runW ops ns d l = .ok d' ∧ d.size ≤ d'.size ∧
      (∀ k, (∀ o ∈ l, ¬ o.samplesAt k) →
        ∀ x, taddr ns k + 240 ≤ x ∧ x < taddr ns k + (240 + 4 * ns) → d'.byte x = d.byte x) ∧
      (∀ k, (∀ o ∈ l, ¬ o.headerAt k) → ∀ x, taddr ns k + 0 ≤ x ∧ x < taddr ns k + 240 → d'.byte x = d.byte x) := by
  induction l with
  | nil => intro d _; exact ⟨d, rfl, Nat.le_refl _, fun _ _ _ _ => rfl, fun _ _ _ _ => rfl⟩
  | cons o l ih =>
    intro d h
    obtain ⟨d1, e1, e2, e3, e4, -, -⟩ := write_keeps (h o List.mem_cons_self) d
    obtain ⟨d2, f1, f2, f3, f4⟩ := ih d1 fun o' ho' => h o' (List.mem_cons_of_mem _ ho')
    refine ⟨d2, ?_, Nat.le_trans e2 f2, ?_, ?_⟩
    · unfold runW; rw [e1, Res.ok_bind]; exact f1
    · intro k hk x hx
      rw [f3 k (fun o' ho' => hk o' (List.mem_cons_of_mem _ ho')) x hx, e3 k (hk o List.mem_cons_self) x hx]
    · intro k hk x hx
      rw [f4 k (fun o' ho' => hk o' (List.mem_cons_of_mem _ ho')) x hx, e4 k (hk o List.mem_cons_self) x hx]

theorem runW_append {F : Type} (ops : FloatOps F) (ns : Nat) (l1 l2 : List (WOp F)) : ∀ (d d1 : Disk),
    runW ops ns d l1 = .ok d1 → runW ops ns d (l1 ++ l2) = runW ops ns d1 l2 := by
  induction l1 with
  | nil => intro d d1 h; cases h; rfl
  | cons o l ih =>
    intro d d1 h
    unfold runW at h
    obtain ⟨⟨d2, t⟩, h1, h2⟩ := bind_ok_inv h
    rw [← ih d2 d1 h2, List.cons_append, runW, h1, Res.ok_bind]

theorem dsamp_congr {d d' : Disk} {ns k s : Nat} (hs : s < ns)
    (h : ∀ x, taddr ns k + 240 ≤ x ∧ x < taddr ns k + (240 + 4 * ns) → d'.byte x = d.byte x) :
    dsamp d' ns k s = dsamp d ns k s := by
  unfold taddr at h
  unfold dsamp dword
  rw [h _ (by omega), h _ (by omega), h _ (by omega), h _ (by omega)]

theorem Header.congr {F : Type} {fs : F → BitVec 16} {en : F → BitVec 16 → BitVec 32} {p : Param F} {row : Nat}
    {h h' : Arr Byte} (hl : HdrLayout p.rule) (hh : Header fs en p row h) (he : ∀ o, o < 240 → h'.val o = h.val o) :
    Header fs en p row h' :=
  ⟨Holds.move hl hh.items (fun o ho => by rw [he o ho, Nat.zero_add]),
    fun o ho hn => by rw [he o ho, hh.rest o ho hn]⟩

/-- Items of a header: what one parameter set put in, another takes out. -/
theorem through {F : Type} {ops : FloatOps F} {p q : Param F} {row row' : Nat} {h : Arr Byte} (hp : WF p) (hq : WF q)
    (hh : Header (fsOf ops) (enOf ops) p row h) (hd : Decoded ops h row' 0 q q.rule.map) (hr : row < p.sz)
    (hr' : row' < q.sz) (m : Nat) (v : Val) (hm : abs p.rule m = some v) (hm' : abs q.rule m = some v) :
    (∀ (T : Type) (cv : Conv F T), v.1 = .short → getPrm cv row' m q = getPrm cv row m p) ∧
    (∀ (T : Type) (cv : Conv F T), v.1 = .long →
      (∀ x, x < p.i.len → -2 ^ 31 ≤ (p.i.val x).toInt ∧ (p.i.val x).toInt < 2 ^ 31) →
      getPrm cv row' m q = getPrm cv row m p) := by
  obtain ⟨e, he, hev⟩ := entry_of_abs hm
  obtain ⟨e', he', hev'⟩ := entry_of_abs hm'
  have hev2 : entryVal e' = entryVal e := hev'.trans hev.symm
  unfold entryVal at hev2
  injection hev2 with hk hl
  injection hl with hloc hscal
  have hkv : v.1 = e.kind := by rw [← hev]; rfl
  have hlt := num_lt hp.inv he
  obtain ⟨a1, a2, -⟩ := hh.items m e he
  obtain ⟨b1, b2, -⟩ := hd m e' he'
  rw [hk, hloc] at b1 b2
  refine ⟨fun T cv h0 => ?_, fun T cv h0 hrange => ?_⟩
  · rw [hkv] at h0
    rw [getPrm_item cv p hp he hr, getPrm_item cv q hq he' hr']
    congr 2
    have b1 := b1 h0
    rw [a1 h0] at b1
    simp only [item, h0, hk]
    rw [Nat.mul_comm _ row', Nat.mul_comm _ row, b1]
  · rw [hkv] at h0
    rw [getPrm_item cv p hp he hr, getPrm_item cv q hq he' hr']
    congr 2
    have b2 := b2 h0
    rw [a2 h0, setWidth_signExtend _ (hrange _ ?_)] at b2
    · simp only [item, h0, hk]
      rw [Nat.mul_comm _ row', Nat.mul_comm _ row, b2]
    · rw [h0] at hlt
      rw [hp.i, Nat.mul_comm row]
      exact idx_lt hlt hr

/-- Two headers holding the same parameters decode alike. -/
theorem alike {F : Type} {ops : FloatOps F} {fs : F → BitVec 16} {en : F → BitVec 16 → BitVec 32} {p q q' : Param F}
    {row r1 r2 : Nat} {h h' : Arr Byte} (hh : Holds fs en p row 0 h) (hh' : Holds fs en p row 0 h') (hq : WF q)
    (hq' : WF q') (hqq : q'.rule = q.rule) (hd : Decoded ops h r1 0 q q.rule.map)
    (hd' : Decoded ops h' r2 0 q' q'.rule.map) (hr1 : r1 < q.sz) (hr2 : r2 < q'.sz) (m : Nat) (v : Val)
    (hm : abs p.rule m = some v) (hm' : abs q.rule m = some v)
    (hv : v.1 = .short ∨ v.1 = .long ∨ v.1 = .float) (T : Type) (cv : Conv F T) :
    getPrm cv r1 m q = getPrm cv r2 m q' := by
  obtain ⟨e, he, hev⟩ := entry_of_abs hm
  obtain ⟨e', he', hev'⟩ := entry_of_abs hm'
  have hev2 : entryVal e' = entryVal e := hev'.trans hev.symm
  unfold entryVal at hev2
  injection hev2 with hk hl
  injection hl with hloc hscal
  have hkv : v.1 = e.kind := by rw [← hev]; rfl
  rw [hkv] at hv
  obtain ⟨a1, a2, a3⟩ := hh m e he
  obtain ⟨c1, c2, c3⟩ := hh' m e he
  obtain ⟨b1, b2, b3⟩ := hd m e' he'
  obtain ⟨f1, f2, f3⟩ := hd' m e' (by rw [hqq]; exact he')
  rw [hk, hloc] at b1 b2 b3 f1 f2 f3
  rw [hscal] at b3 f3
  rw [getPrm_item cv q hq he' hr1, getPrm_item cv q' hq' (by rw [hqq]; exact he') hr2]
  congr 2
  rcases hv with h0 | h0 | h0
  · simp only [item, hk, h0]
    rw [Nat.mul_comm _ r1, Nat.mul_comm _ r2, b1 h0, f1 h0, a1 h0, c1 h0]
  · simp only [item, hk, h0]
    rw [Nat.mul_comm _ r1, Nat.mul_comm _ r2, b2 h0, f2 h0, a2 h0, c2 h0]
  · simp only [item, hk, h0]
    rw [Nat.mul_comm _ r1, Nat.mul_comm _ r2, b3 h0, f3 h0, (a3 h0).1, (a3 h0).2, (c3 h0).1, (c3 h0).2]

/-- **C20** (part): take any sequence of write calls, pick one of them, `o`, and
read any traces afterwards.  Wherever the read meets a trace that `o` wrote and
whose samples no later call wrote, it returns the samples of `o`; where no later
call wrote its header, it returns the 16-bit items, the integer items within 32
bits, and (if both rules keep it) the raw header bytes not named by the writer's
rule; and its coordinates are those of converting the parameters to a header in
memory and back (C15 says what those are).
Missing from the full statement: a later call whose rule does not name an item
replaces it by zero (`C20_unnamed_refuted`). -/
theorem C20_last_write_partial {F : Type} (ops : FloatOps F) (cv : Conv F (BitVec 64)) (hcv : ∀ v, cv.toT v = v)
    (ns N : Nat) (d : Disk) (h1 h2 : List (WOp F)) (o : WOp F) (hok : ∀ x ∈ h1 ++ o :: h2, x.Ok ops ns N) :
    ∃ d', runW ops ns d (h1 ++ o :: h2) = .ok d' ∧
      ∀ w sz trc prm skip, ROk ns N w sz trc prm skip d' →
      ∃ t' p', readTraceT ops cv false ns w sz trc prm skip d' = .ok (t', p') ∧
        ∀ i j, i < o.sz → j < sz → o.w.trace i = w.trace j →
          (∀ t, o.trc = some t → trc ≠ none → (∀ x ∈ h2, ¬ x.samplesAt (w.trace j)) →
            ∃ t1, t' = some t1 ∧ ∀ s, s < ns → loadF t1 (j * ns + s) = loadF t (i * ns + s)) ∧
          (∀ p q, o.prm = some p → prm = some q → (∀ x ∈ h2, ¬ x.headerAt (w.trace j)) →
            ∃ q1, p' = some q1 ∧
            (∀ m v, abs p.rule m = some v → abs q.rule m = some v →
              (∀ (T : Type) (cv : Conv F T), v.1 = .short → getPrm cv (j + skip) m q1 = getPrm cv (i + o.skip) m p) ∧
              (∀ (T : Type) (cv : Conv F T), v.1 = .long →
                (∀ x, x < p.i.len → -2 ^ 31 ≤ (p.i.val x).toInt ∧ (p.i.val x).toInt < 2 ^ 31) →
                getPrm cv (j + skip) m q1 = getPrm cv (i + o.skip) m p)) ∧
            (∃ b qm, insertParam ops 1 p (.fill 240 0#8) 0 (i + o.skip) = .ok (b, p.rule) ∧
              extractParam ops 1 b 0 q 0 (j + skip) = .ok qm ∧
              ∀ m v, abs p.rule m = some v → abs q.rule m = some v → v.1 = .float →
                ∀ (T : Type) (cv : Conv F T), getPrm cv (j + skip) m q1 = getPrm cv (j + skip) m qm) ∧
            (p.rule.cnt .copy ≠ 0 → q.rule.cnt .copy ≠ 0 → ∀ x, x < 240 → ¬ Named p.rule 0 x →
              q1.c.val ((j + skip) * 240 + x) = p.c.val ((i + o.skip) * 240 + x))) := by
  obtain ⟨d1, a1, -⟩ := runW_keeps h1 d fun x hx => hok x (by simp [hx])
  have ho : o.Ok ops ns N := hok o (by simp)
  obtain ⟨d2, b1, -, -, -, b5, b6⟩ := write_keeps ho d1
  obtain ⟨d', c1, -, c3, c4⟩ := runW_keeps h2 d2 fun x hx => hok x (by simp [hx])
  refine ⟨d', ?_, ?_⟩
  · rw [runW_append ops ns h1 _ d d1 a1]
    unfold runW
    rw [b1, Res.ok_bind]; exact c1
  intro w sz trc prm skip hr
  obtain ⟨t', p', e1, -, -, e4, e5⟩ := read_spec ops cv hcv ns w sz trc prm skip d' N hr.small hr.ndec hr.blocks hr.trcOk
    hr.prmOk hr.any
  refine ⟨t', p', e1, ?_⟩
  intro i j hi hj hij
  refine ⟨?_, ?_⟩
  · intro t ht htn hlast
    cases trc with
    | none => exact absurd rfl htn
    | some t0 =>
      obtain ⟨t1, rfl, g⟩ := e4 t0 rfl
      refine ⟨t1, rfl, ?_⟩
      intro s hs
      have hlen := ho.trc t ht
      have hlen' := hr.trcOk t0 rfl
      have r1 := row_lt (ns := ns) hi hs
      have r2 := row_lt (ns := ns) hj hs
      rw [Nat.mul_comm i, Nat.mul_comm j, loadF_ok (by rw [g.len]; omega), loadF_ok (by omega), Nat.mul_comm ns j,
        Nat.mul_comm ns i, g.samples j s hj hs, ← b5 t ht i s hi hs, hij]
      rw [dsamp_congr hs (c3 _ hlast)]
  · intro p q hp hq hlast
    obtain ⟨q1, rfl, g⟩ := e5 q hq
    obtain ⟨hpo, hpsz⟩ := ho.prm p hp
    obtain ⟨hqo, hqsz⟩ := hr.prmOk q hq
    have hh : Header (fsOf ops) (enOf ops) p (i + o.skip) (dhdr d' ns (w.trace j)) := by
      refine Header.congr hpo.layout (b6 p hp i hi) fun x hx => ?_
      rw [hij]
      have := c4 _ hlast (taddr ns (w.trace j) + x) (by omega)
      exact this
    have hdec : Decoded ops (dhdr d' ns (w.trace j)) (j + skip) 0 q1 q1.rule.map := by
      rw [g.rule]; exact g.dec j hj
    refine ⟨q1, rfl, ?_, ?_, ?_⟩
    · intro m v hm hm'
      exact through hpo.wf g.wf hh hdec (by omega) (by rw [g.size]; omega) m v hm (by rw [g.rule]; exact hm')
    · obtain ⟨b, f1, f2, f3⟩ := hpo.insert 1 0 (i + o.skip) (by omega) (by decide)
      have f2 : b.len = 240 := f2
      obtain ⟨qm, k1, k2, k3, k4, -⟩ := extractParam_spec ops b 0 1 0 (j + skip) q hqo.wf hqo.layout hqo.full hqo.start
        (by omega) (by omega) (by omega)
      have k4 := k4 0 (by omega)
      rw [Nat.zero_add] at k4
      have hb := f3 0 (by omega) b (fun o _ => by simp)
      rw [Nat.zero_add] at hb
      refine ⟨b, qm, f1, k1, fun m v hm hm' hv T cv => ?_⟩
      exact alike hh.items hb.items g.wf (k2.wf hqo.wf k3) (by rw [k2.rule, g.rule]) hdec
        (by rw [k2.rule]; simpa using k4) (by rw [g.size]; omega) (by rw [k2.sz]; omega) m v hm
        (by rw [g.rule]; exact hm') (Or.inr (Or.inr hv)) T cv
    · intro hpc hqc x hx hn
      rw [g.raw hqc j hj x hx, hh.rest x hx hn, if_pos hpc]

/-- **C20**: a write call returns the caller's trace memory unchanged. -/
theorem C20_caller_buffer {F : Type} (ops : FloatOps F) (ns N : Nat) (o : WOp F) (h : o.Ok ops ns N) (d : Disk) :
    ∃ d', writeTraceT ops ns o.w o.sz o.trc o.prm o.skip d = .ok (d', o.trc) := by
  obtain ⟨d', h1, -⟩ := write_keeps h d
  exact ⟨d', h1⟩

theorem fetch_congr (d d' : Disk) (l : List (Nat × Nat)) : ∀ (buf : Arr Byte),
    (∀ m ∈ l, m.2 < d.size ∧ m.2 < d'.size ∧ d'.byte m.2 = d.byte m.2) → fetch d' buf l = fetch d buf l := by
  induction l with
  | nil => intro buf _; rfl
  | cons q l ih =>
    intro buf h
    obtain ⟨b, f⟩ := q
    obtain ⟨h1, h2, h3⟩ := h (b, f) List.mem_cons_self
    unfold fetch
    rw [if_pos h1, if_pos h2]
    simp only at h3
    rw [h3]
    cases hs : buf.set b (d.byte f) with
    | ok b' =>
      rw [Res.ok_bind, Res.ok_bind]
      exact ih b' fun m hm => h m (List.mem_cons_of_mem _ hm)
    | ub => rfl
    | abort => rfl

/-- **C20**: writes elsewhere never change a trace: if no call of the sequence
writes the samples or the header of any trace of a read, the read returns what
it would have returned before. -/
theorem C20_elsewhere {F : Type} (ops : FloatOps F) (cv : Conv F (BitVec 64)) (ns N : Nat) (d : Disk)
    (l : List (WOp F)) (hok : ∀ x ∈ l, x.Ok ops ns N) (w : Where) (sz : Nat) (trc : Option (Arr Byte))
    (prm : Option (Param F)) (skip : Nat) (hr : ROk ns N w sz trc prm skip d)
    (hno : ∀ x ∈ l, ∀ j, j < sz → ¬ x.samplesAt (w.trace j) ∧ ¬ x.headerAt (w.trace j)) (ibm : Bool) :
    ∃ d', runW ops ns d l = .ok d' ∧
      readTraceT ops cv ibm ns w sz trc prm skip d' = readTraceT ops cv ibm ns w sz trc prm skip d := by
  obtain ⟨d', e1, e2, e3, e4⟩ := runW_keeps l d hok
  refine ⟨d', e1, ?_⟩
  have key : ∀ j, j < sz → ∀ x, x < 240 + 4 * ns →
      taddr ns (w.trace j) + x < d.size ∧ taddr ns (w.trace j) + x < d'.size ∧
      d'.byte (taddr ns (w.trace j) + x) = d.byte (taddr ns (w.trace j) + x) := by
    intro j hj x hx
    have := hr.blocks j hj
    refine ⟨by omega, by omega, ?_⟩
    by_cases hx' : x < 240
    · exact e4 _ (fun o ho => (hno o ho j hj).2) _ (by omega)
    · exact e3 _ (fun o ho => (hno o ho j hj).1) _ (by omega)
  have hrecv : ∀ tr pr buf, recv d' buf (readReqs ns w sz tr pr) = recv d buf (readReqs ns w sz tr pr) := by
    intro tr pr buf
    unfold recv
    split
    · refine fetch_congr d d' _ buf fun m hm => ?_
      cases tr <;> cases pr
      · obtain ⟨i, r, hi, hr', rfl⟩ := (reqDF_blocks hr.small m).mp hm
        have := key i hi (240 + r) (by omega)
        rw [← Nat.add_assoc] at this
        exact this
      · obtain ⟨i, r, hi, hr', rfl⟩ := (reqMD_blocks hr.small m).mp hm
        exact key i hi r (by omega)
      · obtain ⟨i, r, hi, hr', rfl⟩ := (reqDF_blocks hr.small m).mp hm
        have := key i hi (240 + r) (by omega)
        rw [← Nat.add_assoc] at this
        exact this
      · obtain ⟨i, r, hi, hr', rfl⟩ := (reqDO_blocks hr.small m).mp hm
        exact key i hi r (by omega)
    · rfl
  unfold readTraceT readIn
  cases prm <;> cases trc <;> simp only [hrecv]

theorem val16_zero {h : Arr Byte} {i : Nat} (h0 : h.val i = 0#8) (h1 : h.val (i + 1) = 0#8) : val16 h i = 0#16 := by
  unfold val16; rw [h0, h1]; decide

theorem val32_zero {h : Arr Byte} {i : Nat} (h0 : ∀ r, r < 4 → h.val (i + r) = 0#8) : val32 h i = 0#32 := by
  unfold val32
  rw [show h.val i = 0#8 from h0 0 (by omega), h0 1 (by omega), h0 2 (by omega), h0 3 (by omega)]; decide

/-- **C20** refuted: a parameter write through a rule that does not name an
integer item (and keeps no raw headers) replaces that item by zero at every trace
it writes, whatever was stored there before. -/
theorem C20_unnamed_refuted {F : Type} (ops : FloatOps F) (cv : Conv F (BitVec 64)) (hcv : ∀ v, cv.toT v = v)
    (ns N : Nat) (d : Disk) (o : WOp F) (hok : o.Ok ops ns N) (p : Param F) (hp : o.prm = some p)
    (hc : p.rule.cnt .copy = 0) (q : Param F) (m : Nat) (k : Kind) (loc scal : Nat)
    (hm : abs q.rule m = some (k, loc, scal)) (hk : k = .short ∨ k = .long)
    (hn : ∀ x, loc ≤ x → x < loc + width k → ¬ Named p.rule 0 (x - 1)) :
    ∃ d', runW ops ns d [o] = .ok d' ∧ ∀ w sz trc skip, ROk ns N w sz trc (some q) skip d' →
      ∃ t' q1, readTraceT ops cv false ns w sz trc (some q) skip d' = .ok (t', some q1) ∧
        ∀ i j, i < o.sz → j < sz → o.w.trace i = w.trace j → ∀ (T : Type) (cv : Conv F T),
          getPrm cv (j + skip) m q1 = .ok (if k = .short then cv.ofS 0#16 else cv.ofI 0#64) := by
  obtain ⟨d', e1, -, -, -, -, e6⟩ := write_keeps hok d
  refine ⟨d', by unfold runW; rw [e1]; rfl, ?_⟩
  intro w sz trc skip hr
  obtain ⟨t', p', f1, -, -, -, f5⟩ := read_spec ops cv hcv ns w sz trc (some q) skip d' N hr.small hr.ndec hr.blocks
    hr.trcOk hr.prmOk hr.any
  obtain ⟨q1, rfl, g⟩ := f5 q rfl
  refine ⟨t', q1, f1, ?_⟩
  intro i j hi hj hij T cv
  obtain ⟨hqo, hqsz⟩ := hr.prmOk q rfl
  obtain ⟨e, he, hev⟩ := entry_of_abs hm
  unfold entryVal at hev
  injection hev with hek hl
  injection hl with hloc hscal
  have hh := e6 p hp i hi
  rw [hij] at hh
  have hz : ∀ x, loc ≤ x → x < loc + width k → x < 241 → (dhdr d' ns (w.trace j)).val (x - 1) = 0#8 := by
    intro x hx hx' hx''
    rw [hh.rest (x - 1) (by omega) (hn x hx hx'), if_neg (by simp [hc])]
  have hv : Valued e.kind := by rw [hek]; rcases hk with h | h <;> simp [Valued, h]
  have hfit := hqo.layout.fits m e he hv
  rw [hek, hloc] at hfit
  have hd := g.dec j hj m e he
  rw [Nat.zero_add, hloc, hek] at hd
  rw [getPrm_item cv q1 g.wf (by rw [g.rule]; exact he) (by rw [g.size]; omega)]
  rcases hk with rfl | rfl
  · have h16 : val16 (dhdr d' ns (w.trace j)) (loc - 1) = 0#16 := by
      have hw : width Kind.short = 2 := rfl
      rw [hw] at hz hfit
      refine val16_zero (hz loc (by omega) (by omega) (by omega)) ?_
      have := hz (loc + 1) (by omega) (by omega) (by omega)
      rwa [show loc + 1 - 1 = loc - 1 + 1 by omega] at this
    have := hd.1 rfl
    simp only [item, hek, ofItem, if_true]
    rw [Nat.mul_comm, this, h16]
  · have h32 : val32 (dhdr d' ns (w.trace j)) (loc - 1) = 0#32 := by
      have hw : width Kind.long = 4 := rfl
      rw [hw] at hz hfit
      refine val32_zero fun r hr' => ?_
      have := hz (loc + r) (by omega) (by omega) (by omega)
      rwa [show loc + r - 1 = loc - 1 + r by omega] at this
    have := hd.2.1 rfl
    simp only [item, hek, ofItem]
    rw [Nat.mul_comm, this, h32]
    simp

/-! A case meeting the hypotheses: the inline number (item 26) at traces 1 and 2
of a file with two samples a trace. -/

theorem exRule : ∃ r, ctor [26] true false false = .ok r ∧ Inv r ∧ HdrLayout r ∧ r.fullextent = true ∧ r.start = 0 ∧
    r.cnt .copy = 0 ∧ (∃ e, (ltn, some e) ∈ r.map ∧ e.kind = .index) ∧ abs r 26 = some (.long, 189, 0) := by
  have hr : ∃ r, ctor [26] true false false = .ok r := ⟨_, rfl⟩
  obtain ⟨r, h⟩ := hr
  have hreach : Reachable r := Reach.ctor h trivial
  have hk : KnownOnly r := by
    have hm : ∀ p ∈ r.map, ∃ e, p.2 = some e ∧ (e.kind = .index ∨ known p.1 = some (entryVal e)) := by
      cases h; decide +kernel
    intro m v hv
    obtain ⟨e, he, rfl⟩ := entry_of_abs hv
    obtain ⟨e', h1, h2⟩ := hm _ he
    cases h1
    exact h2
  have ha : abs r ltn = some (.index, 0, 0) := by cases h; rfl
  obtain ⟨e, he, hev⟩ := entry_of_abs ha
  refine ⟨r, h, hreach.inv, C12_known_layout r hreach.inv hk, by cases h; rfl, by cases h; rfl, by cases h; rfl,
    ⟨e, he, by have := congrArg Prod.fst hev; exact this⟩, by cases h; rfl⟩

example : ∃ (o : WOp Unit) (q : Param Unit) (d : Disk), o.Ok noFloat 2 5 ∧ o.trc ≠ none ∧ o.prm ≠ none ∧
    ROk 2 5 (.start 2) 1 (some (.fill 8 0#8)) (some q) 0 d ∧ o.w.trace 1 = (Where.start 2).trace 0 ∧
    abs q.rule 26 = some (.long, 189, 0) := by
  obtain ⟨r, -, hi, hl, hf, hs, -, hltn, h26⟩ := exRule
  refine ⟨⟨.start 1, 2, some (.fill 16 0#8), some (mk () r 2), 0⟩, mk () r 1, ⟨10000, fun _ => 0#8⟩, ⟨⟨by decide, ?_, ?_, by simp,
    show 2 ≤ 5 by decide⟩, ?_, ?_, ?_, by simp⟩, by simp, by simp, ⟨⟨by decide, ?_, ?_, by simp, by decide⟩, ?_, ?_, ?_, ?_, by simp⟩, rfl, h26⟩
  · intro i hi; simp only [Where.trace, add64] at *; omega
  · intro o ho _; cases ho; show 1 + 2 ≤ 5; decide
  · intro i j hij hj; simp only [Where.trace, add64] at *; omega
  · intro t ht; cases ht; exact ⟨Nat.le_refl 16, by decide⟩
  · intro p hp; cases hp
    exact ⟨⟨mk_wf _ hi _, hl, hf, hs, fun x _ => ⟨_, rfl⟩, fun x _ s => ⟨_, rfl⟩⟩, by simp [mk]⟩
  · intro i hi; simp only [Where.trace, add64] at *; omega
  · intro o ho _; cases ho; decide
  · intro i j hij hj; omega
  · intro i hi; simp only [Where.trace, add64] at *; omega
  · intro t ht; cases ht; exact ⟨by decide, by decide⟩
  · intro p hp; cases hp
    exact ⟨⟨mk_wf _ hi _, hl, hf, hs, hltn⟩, by simp [mk]⟩

/-- A rule without fields names nothing, so writing through it clears item 26. -/
example : ∃ r, ctor [] true false false = .ok r ∧ r.cnt .copy = 0 ∧ ∀ x, ¬ Named r 0 x := by
  refine ⟨_, rfl, rfl, ?_⟩
  rintro x ⟨m, e, hm, h⟩
  have hall : ∀ p ∈ [(ltn, some (⟨Kind.index, 1, 0, 0⟩ : Entry)), (gtn, some ⟨.index, 0, 0, 0⟩)],
      ∀ e, p.2 = some e → e.kind = .index := by
    intro p hp e he
    simp at hp
    rcases hp with rfl | rfl <;> cases he <;> rfl
  have := hall (m, some e) hm e rfl
  rcases h with ⟨hv, -⟩ | ⟨hv, -⟩
  · rcases hv with h | h | h <;> rw [this] at h <;> cases h
  · rw [this] at hv; cases hv

/-! ## C22 -/

theorem clamp_eq {nt offset sz : Nat} (hoff : offset ≤ nt) (hnt : nt < 2 ^ 64) (hov : offset + sz < 2 ^ 64) :
    clamp nt offset sz = min sz (nt - offset) := by
  unfold clamp
  rw [add64_eq hov]
  by_cases hz : sz = 0
  · rw [if_pos hz]; omega
  · rw [if_neg hz]
    by_cases hg : offset + sz > nt
    · rw [if_pos hg, sub64_eq hoff hnt]; omega
    · rw [if_neg hg]; omega

theorem nt_lt {ns nt : Nat} (h : taddr ns nt < 2 ^ 63) : nt < 2 ^ 63 := by
  unfold taddr at h
  have : nt * 1 ≤ nt * (240 + 4 * ns) := Nat.mul_le_mul_left _ (by omega)
  omega

theorem clamp_small {ns nt offset sz : Nat} (h : taddr ns nt < 2 ^ 63) (hoff : offset ≤ nt)
    (hov : offset + sz < 2 ^ 64) : Small ns (.start offset) (clamp nt offset sz) nt := by
  have hn := nt_lt h
  have hc := clamp_eq hoff (by omega) hov
  refine ⟨h, ?_, ?_, by simp, by omega⟩
  · intro i hi
    rw [hc] at hi
    show add64 offset i < nt
    rw [add64_eq (by omega)]; omega
  · intro o ho _
    cases ho
    omega

/-- The bytes of a trace that a request goes for: all, the header, or the samples. -/
def part (ns : Nat) (traces params : Bool) : Nat × Nat :=
  if params then (if traces then (0, 240 + 4 * ns) else (0, 240)) else (240, 240 + 4 * ns)

/-- **C22** (part): when the offset is not beyond the end of the file and
`offset + sz` does not wrap, a contiguous read goes for exactly the existing
traces of the interval: the file positions it addresses are those of the wanted
part of traces `offset` to `min (offset + sz) nt`, and all lie in the file.
Missing from the full statement: an offset beyond the end
(`C22_beyond_refuted`). -/
theorem C22_clamped_partial (ns nt offset sz : Nat) (traces params : Bool)
    (h : 3600 + nt * (240 + 4 * ns) < 2 ^ 63) (hoff : offset ≤ nt) (hov : offset + sz < 2 ^ 64) (x : Nat) :
    ((∃ b, (b, x) ∈ (readReqs ns (.start offset) (clamp nt offset sz) traces params).flatMap DataIO.Op.wanted) ↔
      ∃ k a, offset ≤ k ∧ k < offset + sz ∧ k < nt ∧ (part ns traces params).1 ≤ a ∧ a < (part ns traces params).2 ∧
        x = 3600 + k * (240 + 4 * ns) + a) ∧
    ((∃ b, (b, x) ∈ (readReqs ns (.start offset) (clamp nt offset sz) traces params).flatMap DataIO.Op.wanted) →
      x < 3600 + nt * (240 + 4 * ns)) := by
  have hsm := clamp_small (ns := ns) h hoff hov
  have hn := nt_lt (ns := ns) h
  have hc := clamp_eq hoff (by omega) hov
  have htr : ∀ i, i < clamp nt offset sz → (Where.start offset).trace i = offset + i := by
    intro i hi
    show add64 offset i = _
    rw [add64_eq (by omega)]
  have key : (∃ b, (b, x) ∈ (readReqs ns (.start offset) (clamp nt offset sz) traces params).flatMap DataIO.Op.wanted) ↔
      ∃ k a, offset ≤ k ∧ k < offset + sz ∧ k < nt ∧ (part ns traces params).1 ≤ a ∧ a < (part ns traces params).2 ∧
        x = 3600 + k * (240 + 4 * ns) + a := by
    have conv : ∀ (c b : Nat) (l : List (Nat × Nat)),
        Blocks l (clamp nt offset sz) b (fun i => taddr ns ((Where.start offset).trace i) + c) →
        ((∃ y, (y, x) ∈ l) ↔ ∃ k a, offset ≤ k ∧ k < offset + sz ∧ k < nt ∧ c ≤ a ∧ a < c + b ∧
          x = 3600 + k * (240 + 4 * ns) + a) := by
      intro c b l hl
      constructor
      · rintro ⟨y, hy⟩
        obtain ⟨i, r, hi, hr, he⟩ := (hl _).mp hy
        injection he with _ he
        simp only at he
        rw [htr i hi] at he
        refine ⟨offset + i, c + r, by omega, by omega, by omega, by omega, by omega, ?_⟩
        rw [he]; unfold taddr; omega
      · rintro ⟨k, a, h1, h2, h3, h4, h5, rfl⟩
        have hi : k - offset < clamp nt offset sz := by omega
        refine ⟨b * (k - offset) + (a - c), (hl _).mpr ⟨k - offset, a - c, hi, by omega, ?_⟩⟩
        simp only
        rw [htr _ hi, show offset + (k - offset) = k by omega]
        unfold taddr
        congr 1; omega
    cases traces <;> cases params
    · exact conv 240 (4 * ns) _ (reqDF_blocks hsm)
    · have := conv 0 240 _ (reqMD_blocks hsm); rw [Nat.zero_add] at this; exact this
    · exact conv 240 (4 * ns) _ (reqDF_blocks hsm)
    · have := conv 0 (240 + 4 * ns) _ (reqDO_blocks hsm); rw [Nat.zero_add] at this; exact this
  refine ⟨key, fun hx => ?_⟩
  obtain ⟨k, a, -, -, h3, -, h5, rfl⟩ := key.mp hx
  have := taddr_le (ns := ns) h3
  unfold taddr at this
  have : (part ns traces params).2 ≤ 240 + 4 * ns := by unfold part; split <;> (try split) <;> simp
  omega

/-- **C22** (part): the read returns the samples and the parameters of those
traces and leaves the rest of the caller's memory as it was.  `getPrm` of the row
of a trace is what a read of that one trace gives. -/
theorem C22_transfer_partial {F : Type} (ops : FloatOps F) (cv : Conv F (BitVec 64)) (hcv : ∀ v, cv.toT v = v)
    (ns nt offset sz : Nat) (t : Arr Byte) (q : Param F) (skip : Nat) (d : Disk)
    (h : 3600 + nt * (240 + 4 * ns) < 2 ^ 63) (hd : d.size = 3600 + nt * (240 + 4 * ns)) (hoff : offset ≤ nt)
    (hov : offset + sz < 2 ^ 64) (ht : 4 * (ns * min sz (nt - offset)) ≤ t.len) (ht' : t.len ≤ 2 ^ 63) (hq : RdOk q)
    (hqs : min sz (nt - offset) + skip ≤ q.sz) :
    ∃ t' q', readTrace ops cv false ns nt offset sz (some t) (some q) skip d = .ok (some t', some q') ∧
      (∀ k s, offset ≤ k → k < offset + sz → k < nt → s < ns →
        loadF t' ((k - offset) * ns + s) = .ok (fromBE32 (d.byte (3600 + k * (240 + 4 * ns) + 240 + 4 * s))
          (d.byte (3600 + k * (240 + 4 * ns) + 240 + 4 * s + 1)) (d.byte (3600 + k * (240 + 4 * ns) + 240 + 4 * s + 2))
          (d.byte (3600 + k * (240 + 4 * ns) + 240 + 4 * s + 3)))) ∧
      (∀ x, 4 * (ns * min sz (nt - offset)) ≤ x → t'.val x = t.val x) ∧
      (∀ k e, offset ≤ k → k < offset + sz → k < nt → (ltn, some e) ∈ q.rule.map →
        q'.t.val (q.rule.cnt .index * (k - offset + skip) + e.num) = BitVec.ofNat 64 k) ∧
      (∀ row m, abs q.rule m ≠ none → row < q.sz → ¬ (skip ≤ row ∧ row < min sz (nt - offset) + skip) →
        ∀ (T : Type) (cv : Conv F T), getPrm cv row m q' = getPrm cv row m q) := by
  have hsm := clamp_small (ns := ns) h hoff hov
  have hn := nt_lt (ns := ns) h
  have hc := clamp_eq hoff (by omega) hov
  have htr : ∀ i, i < min sz (nt - offset) → (Where.start offset).trace i = offset + i := by
    intro i hi
    show add64 offset i = _
    rw [add64_eq (by omega)]
  rw [hc] at hsm
  obtain ⟨t', p', e1, -, -, e4, e5⟩ := read_spec ops cv hcv ns (.start offset) (min sz (nt - offset)) (some t) (some q)
    skip d nt hsm (fun i j hij hj => by rw [htr i (by omega), htr j hj]; omega)
    (fun i hi => by
      rw [hd, htr i hi]
      have := taddr_le (ns := ns) (show offset + i < nt by omega)
      unfold taddr at this ⊢
      omega)
    (fun t2 ht2 => by cases ht2; exact ⟨ht, ht'⟩) (fun q2 hq2 => by cases hq2; exact ⟨hq, hqs⟩) (by simp)
  obtain ⟨t1, rfl, g⟩ := e4 t rfl
  obtain ⟨q1, rfl, g'⟩ := e5 q rfl
  refine ⟨t1, q1, by unfold readTrace; rw [hc]; exact e1, ?_, g.rest, ?_, ?_⟩
  · intro k s h1 h2 h3 hs
    have hi : k - offset < min sz (nt - offset) := by omega
    have := row_lt (ns := ns) hi hs
    rw [Nat.mul_comm, loadF_ok (by rw [g.len]; omega), Nat.mul_comm ns, g.samples _ s hi hs, htr _ hi,
      show offset + (k - offset) = k by omega]
    rfl
  · intro k e h1 h2 h3 he
    have hi : k - offset < min sz (nt - offset) := by omega
    rw [g'.number _ e hi he, htr _ hi, show offset + (k - offset) = k by omega]
  · intro row m hm hrow hne T cv
    cases ha : abs q.rule m with
    | none => exact absurd ha hm
    | some v =>
      obtain ⟨e, he, -⟩ := entry_of_abs ha
      rw [getPrm_item cv q hq.wf he hrow, getPrm_item cv q1 g'.wf (by rw [g'.rule]; exact he)
        (by rw [g'.size]; exact hrow), g'.rows row m e he hrow hne]

/-- Ten traces of two samples; the last five asked as eight. -/
example : clamp 10 5 8 = 5 ∧ 3600 + 10 * (240 + 4 * 2) < 2 ^ 63 := by decide

/-- **C22** refuted: a read of parameters or of samples at any offset beyond the
end of the file asks for almost `2^64` traces, the first of them beyond the end. -/
theorem C22_beyond_refuted (ns nt offset sz : Nat) (hns : 0 < ns) (hoff : nt < offset) (hsz : 0 < sz)
    (h : 3600 + (offset + sz) * (240 + 4 * ns) < 2 ^ 63) (traces : Bool) :
    clamp nt offset sz = 2 ^ 64 - (offset - nt) ∧
    ∃ b x, (b, x) ∈ (readReqs ns (.start offset) (clamp nt offset sz) traces (!traces)).flatMap DataIO.Op.wanted ∧
      3600 + nt * (240 + 4 * ns) ≤ x := by
  have hN : taddr ns (offset + sz) < 2 ^ 63 := h
  have hn := nt_lt hN
  have hc : clamp nt offset sz = 2 ^ 64 - (offset - nt) := by
    unfold clamp
    rw [if_neg (by omega), add64_eq (by omega), if_pos (by omega), sub64_wrap (by omega) (by omega)]
  refine ⟨hc, ?_⟩
  have hsm : Small ns (.start offset) 1 (offset + sz) :=
    ⟨hN, fun i hi => by show add64 offset i < _; rw [add64_eq (by omega)]; omega, fun o ho _ => by cases ho; omega,
      by simp, by omega⟩
  have hloc := hsm.loc (k := offset) (by omega)
  have hns' := hsm.ns_lt (by omega)
  have hle := taddr_le (ns := ns) hoff
  unfold taddr at hle
  cases traces with
  | true =>
    refine ⟨0, getDODFLoc offset ns + 0, ?_, ?_⟩
    · simp only [readReqs, reqDF, Bool.not_true, Bool.false_eq_true, if_false, List.flatMap_cons, List.flatMap_nil,
        List.append_nil]
      exact (wanted_strided _ _ _ _ _).mpr ⟨0, 0, by omega, by rw [getDFSz_eq (by omega)]; omega, rfl⟩
    · rw [hloc.2]; unfold taddr; omega
  | false =>
    refine ⟨0, getDOLoc offset ns + 0, ?_, ?_⟩
    · simp only [readReqs, reqMD, Bool.not_false, Bool.false_eq_true, if_true, if_false, List.flatMap_cons,
        List.flatMap_nil, List.append_nil]
      exact (wanted_strided _ _ _ _ _).mpr ⟨0, 0, by omega, by decide, rfl⟩
    · rw [hloc.1]; unfold taddr; omega

example : (10 : Nat) < 11 ∧ 3600 + (11 + 1) * (240 + 4 * 2) < 2 ^ 63 := by decide

theorem alloc_beyond {m k : Nat} (hk : 0 < k) (h : m * k < 2 ^ 63) (hm : 0 < m) : alloc (mul64 m (2 ^ 64 - k)) = .abort := by
  have hk' : k ≤ m * k := Nat.le_mul_of_pos_left k hm
  have hp : 0 < m * k := Nat.mul_pos hm hk
  have e : m * (2 ^ 64 - k) = (2 ^ 64 - m * k) + 2 ^ 64 * (m - 1) := by
    obtain ⟨n, rfl⟩ : ∃ n, m = n + 1 := ⟨m - 1, by omega⟩
    rw [Nat.mul_sub, Nat.add_sub_cancel]
    generalize (n + 1) * k = x at *
    omega
  unfold alloc mul64
  rw [e, Nat.add_mul_mod_self_left, Nat.mod_eq_of_lt (by omega), if_neg (by omega)]

/-- **C22** refuted: every read of parameters beyond the end of the file, with or without samples, ends in an
exception for want of memory. -/
theorem C22_memory_refuted {F : Type} (ops : FloatOps F) (cv : Conv F (BitVec 64)) (ibm : Bool) (ns nt offset sz : Nat)
    (trc : Option (Arr Byte)) (p : Param F) (skip : Nat) (d : Disk) (hoff : nt < offset) (hsz : 0 < sz)
    (h : 3600 + (offset + sz) * (240 + 4 * ns) < 2 ^ 63) :
    readTrace ops cv ibm ns nt offset sz trc (some p) skip d = .abort := by
  have hN : taddr ns (offset + sz) < 2 ^ 63 := h
  have hn := nt_lt hN
  have hc : clamp nt offset sz = 2 ^ 64 - (offset - nt) := by
    unfold clamp
    rw [if_neg (by omega), add64_eq (by omega), if_pos (by omega), sub64_wrap (by omega) (by omega)]
  have hk : (240 + 4 * ns) * (offset - nt) < 2 ^ 63 := by
    rw [Nat.mul_comm]
    have : (offset - nt) * (240 + 4 * ns) ≤ (offset + sz) * (240 + 4 * ns) := Nat.mul_le_mul_right _ (by omega)
    omega
  have hns : 4 * ns < 2 ^ 63 := by
    have : 1 * (240 + 4 * ns) ≤ (offset + sz) * (240 + 4 * ns) := Nat.mul_le_mul_right _ (by omega)
    omega
  have hmd : 240 * (offset - nt) < 2 ^ 63 := by
    have : 240 * (offset - nt) ≤ (240 + 4 * ns) * (offset - nt) := Nat.mul_le_mul_right _ (by omega)
    omega
  unfold readTrace readTraceT readIn
  rw [hc]
  cases trc with
  | none =>
    simp only
    rw [show getMDSz = 240 from rfl, alloc_beyond (by omega) hmd (by omega)]
    rfl
  | some t =>
    simp only
    rw [getDOSz_eq (by omega), alloc_beyond (by omega) hk (by omega)]
    rfl

example : (10 : Nat) < 11 ∧ 0 < 1 ∧ 3600 + (11 + 1) * (240 + 4 * 2) < 2 ^ 63 := by decide

/-! ## C24 -/

theorem f2d_low (w : BitVec 32) : (f2d w).toNat % 2 ^ 29 = 0 := by
  have hw := w.isLt
  unfold f2d
  simp only
  split
  · rw [BitVec.toNat_ofNat, Nat.mod_mod_of_dvd _ ⟨2 ^ 35, by decide⟩]
    omega
  · split
    · split
      · rw [BitVec.toNat_ofNat, Nat.mod_mod_of_dvd _ ⟨2 ^ 35, by decide⟩]
        omega
      · rename_i hfr
        rw [BitVec.toNat_ofNat, Nat.mod_mod_of_dvd _ ⟨2 ^ 35, by decide⟩]
        have hk : (w.toNat % 2 ^ 23).log2 < 23 := (Nat.log2_lt hfr).mpr (by omega)
        generalize (w.toNat % 2 ^ 23).log2 = k at *
        have hp : 2 ^ (52 - k) = 2 ^ (23 - k) * 2 ^ 29 := by rw [← Nat.pow_add]; congr 1; omega
        rw [hp, ← Nat.mul_assoc]
        generalize (w.toNat % 2 ^ 23 - 2 ^ k) * 2 ^ (23 - k) = c
        omega
    · rw [BitVec.toNat_ofNat, Nat.mod_mod_of_dvd _ ⟨2 ^ 35, by decide⟩]
      omega

theorem dByte_toNat (x : BitVec 64) (j : Nat) : (dByte x j).toNat = x.toNat / 2 ^ (8 * j) % 2 ^ 8 := by
  unfold dByte
  rw [BitVec.toNat_setWidth, BitVec.toNat_ushiftRight, Nat.shiftRight_eq_div_pow]

theorem ibm_half : ∀ c, c < 8 → ∀ v, IBM.fromIBMToFloat 0#8 0#8 0#8 (BitVec.ofNat 8 (32 * c)) true = .ok v →
    v = 0x3F000000#32 := by
  have h : ∀ c ∈ List.range 8, (match IBM.fromIBMToFloat 0#8 0#8 0#8 (BitVec.ofNat 8 (32 * c)) true with
      | .ok v => v == 0x3F000000#32
      | _ => true) = true := by decide +kernel
  intro c hc v hv
  have := h c (List.mem_range.mpr hc)
  rw [hv] at this
  simpa using this

theorem ibm_word (w v : BitVec 32) (h : IBM.fromIBMToFloat (dByte (f2d w) 0) (dByte (f2d w) 1) (dByte (f2d w) 2)
    (dByte (f2d w) 3) true = .ok v) : v = 0x3F000000#32 := by
  have hl := f2d_low w
  have hlt := (f2d w).isLt
  have e0 : dByte (f2d w) 0 = 0#8 := by apply BitVec.eq_of_toNat_eq; rw [dByte_toNat]; show _ = 0; omega
  have e1 : dByte (f2d w) 1 = 0#8 := by apply BitVec.eq_of_toNat_eq; rw [dByte_toNat]; show _ = 0; omega
  have e2 : dByte (f2d w) 2 = 0#8 := by apply BitVec.eq_of_toNat_eq; rw [dByte_toNat]; show _ = 0; omega
  have e3 : dByte (f2d w) 3 = BitVec.ofNat 8 (32 * ((f2d w).toNat / 2 ^ 29 % 8)) := by
    apply BitVec.eq_of_toNat_eq; rw [dByte_toNat, BitVec.toNat_ofNat]; omega
  rw [e0, e1, e2, e3] at h
  exact ibm_half _ (Nat.mod_lt _ (by omega)) v h

theorem be_bytes (v : BitVec 32) : ∃ b0 b1 b2 b3, toBEUnsigned 4 v = [b0, b1, b2, b3] ∧ v = fromBE32 b0 b1 b2 b3 := by
  obtain ⟨b0, b1, b2, b3, h1, h2⟩ := C03_roundtrip32 v
  exact ⟨b0, b1, b2, b3, (C03_encode_unsigned 4 v).trans h1, h2.symm⟩

theorem fetch_len (d : Disk) (l : List (Nat × Nat)) : ∀ (b b' : Arr Byte), fetch d b l = .ok b' → b'.len = b.len := by
  induction l with
  | nil => intro b b' h; cases h; rfl
  | cons q l ih =>
    intro b b' h
    obtain ⟨x, f⟩ := q
    unfold fetch at h
    split at h
    · obtain ⟨b1, h1, h2⟩ := bind_ok_inv h
      rw [ih b1 b' h2]
      unfold Arr.set at h1
      split at h1
      · cases h1; rfl
      · cases h1
    · exact ih b b' h

theorem copy_len {src : Arr Byte} (n : Nat) : ∀ (s d : Nat) (a a' : Arr Byte), src.copy s a d n = .ok a' → a'.len = a.len := by
  induction n with
  | zero => intro s d a a' h; cases h; rfl
  | succ n ih =>
    intro s d a a' h
    unfold Arr.copy at h
    obtain ⟨v, -, h⟩ := bind_ok_inv h
    obtain ⟨b1, h1, h2⟩ := bind_ok_inv h
    rw [ih _ _ b1 a' h2]
    unfold Arr.set at h1
    split at h1
    · cases h1; rfl
    · cases h1

theorem samplesOut_len {ns : Nat} {b : Arr Byte} (n : Nat) : ∀ (i : Nat) (a a' : Arr Byte),
    samplesOut ns b a i n = .ok a' → a'.len = a.len := by
  induction n with
  | zero => intro i a a' h; cases h; rfl
  | succ n ih =>
    intro i a a' h
    unfold samplesOut at h
    obtain ⟨v, h1, h⟩ := bind_ok_inv h
    rw [ih _ _ _ h, copy_len _ _ _ _ _ h1]

theorem readIn_len {F : Type} {ops : FloatOps F} {cv : Conv F (BitVec 64)} {ns : Nat} {w : Where} {sz : Nat}
    {t : Arr Byte} {prm : Option (Param F)} {skip : Nat} {d : Disk} {t' : Option (Arr Byte)} {p' : Option (Param F)}
    (h : readIn ops cv ns w sz (some t) prm skip d = .ok (t', p')) : ∃ m, t' = some m ∧ m.len = t.len := by
  unfold readIn at h
  cases prm with
  | none =>
    simp only at h
    obtain ⟨t1, h1, h⟩ := bind_ok_inv h
    cases h
    refine ⟨t1, rfl, ?_⟩
    unfold recv at h1
    split at h1
    · exact fetch_len _ _ _ _ h1
    · cases h1
  | some p =>
    simp only at h
    obtain ⟨b, -, h⟩ := bind_ok_inv h
    obtain ⟨b1, -, h⟩ := bind_ok_inv h
    obtain ⟨t1, h1, h⟩ := bind_ok_inv h
    obtain ⟨_, -, h⟩ := bind_ok_inv h
    obtain ⟨_, -, h⟩ := bind_ok_inv h
    cases h
    exact ⟨t1, rfl, samplesOut_len _ _ _ _ h1⟩

theorem storeF_ok {m m' : Arr Byte} {i : Nat} {v : BitVec 32} (h : 4 * i + 4 ≤ m.len) (hl : m.len ≤ 2 ^ 64)
    (hs : storeF m i v = .ok m') :
    m'.len = m.len ∧ sample m' i = v ∧ ∀ j, j ≠ i → sample m' j = sample m j := by
  unfold storeF at hs
  have hlen : (toBEUnsigned 4 v).reverse.length = 4 := by simp [toBEUnsigned]
  obtain ⟨a, h1, h2, h3, h4⟩ := Arr.writes_spec (toBEUnsigned 4 v).reverse m (4 * i) (by rw [hlen]; exact h) hl
  rw [hs] at h1
  cases h1
  refine ⟨h2, ?_, ?_⟩
  · unfold sample
    have g := fun j hj => h4 j (by rw [hlen]; exact hj)
    rw [g 3 (by omega), g 2 (by omega), g 1 (by omega), show 4 * i = 4 * i + 0 from rfl, g 0 (by omega)]
    obtain ⟨b0, b1, b2, b3, hb, hv⟩ := be_bytes v
    simp only [hb]
    exact hv.symm
  · intro j hj
    unfold sample
    rw [hlen] at h3
    rw [h3 _ (by omega), h3 _ (by omega), h3 _ (by omega), h3 _ (by omega)]

theorem fromIBM_half (n : Nat) : ∀ (i : Nat) (m m' : Arr Byte), 4 * (i + n) ≤ m.len → m.len ≤ 2 ^ 64 →
    fromIBM m i n = .ok m' → m'.len = m.len ∧ (∀ j, i ≤ j → j < i + n → sample m' j = 0x3F000000#32) ∧
      ∀ j, j < i → sample m' j = sample m j := by
  induction n with
  | zero => intro i m m' _ _ h; cases h; exact ⟨rfl, fun j h1 h2 => by omega, fun _ _ => rfl⟩
  | succ n ih =>
    intro i m m' hlen hl h
    unfold fromIBM at h
    rw [loadF_ok (by omega), Res.ok_bind] at h
    obtain ⟨v, h1, h⟩ := bind_ok_inv h
    obtain ⟨m1, h2, h⟩ := bind_ok_inv h
    obtain ⟨g1, g2, g3⟩ := storeF_ok (by omega) hl h2
    obtain ⟨k1, k2, k3⟩ := ih (i + 1) m1 m' (by omega) (by omega) h
    refine ⟨k1.trans g1, ?_, ?_⟩
    · intro j hj hj'
      by_cases hji : j = i
      · subst hji
        rw [k3 j (by omega), g2]
        exact ibm_word _ v h1
      · exact k2 j (by omega) (by omega)
    · intro j hj
      rw [k3 j (by omega), g3 j (by omega)]

/-- **C24** refuted, for every file: a read of samples from an IBM-format file
that does not run into undefined behaviour returns 0.5 for *every* sample,
whatever numbers are stored.  (The bytes handed to the conversion are the low
half of a double obtained from a float, never the stored word.) -/
theorem C24_ibm_refuted {F : Type} (ops : FloatOps F) (cv : Conv F (BitVec 64)) (ns N : Nat) (w : Where) (sz : Nat)
    (t : Arr Byte) (prm : Option (Param F)) (skip : Nat) (d : Disk) (hr : ROk ns N w sz (some t) prm skip d)
    (t' : Option (Arr Byte)) (p' : Option (Param F))
    (h : readTraceT ops cv true ns w sz (some t) prm skip d = .ok (t', p')) :
    ∃ t1, t' = some t1 ∧ ∀ i, i < ns * sz → loadF t1 i = .ok 0x3F000000#32 := by
  unfold readTraceT at h
  obtain ⟨⟨t0, p0⟩, h1, h⟩ := bind_ok_inv h
  simp only at h
  obtain ⟨m, rfl, hm⟩ := readIn_len h1
  obtain ⟨t2, h2, h⟩ := bind_ok_inv h
  cases h
  unfold onTrace at h2
  simp only [if_true] at h2
  obtain ⟨m', h3, h4⟩ := bind_ok_inv h2
  cases h4
  have hb := hr.small.bytes
  have hmul : mul64 ns sz = ns * sz := by
    refine mul64_eq ?_
    have : ns * sz ≤ (240 + 4 * ns) * sz := Nat.mul_le_mul_right _ (by omega)
    omega
  obtain ⟨hl, hl'⟩ := hr.trcOk t rfl
  rw [hmul] at h3
  obtain ⟨g1, g2, -⟩ := fromIBM_half _ _ _ _ (by rw [hm]; omega) (by omega) h3
  refine ⟨m', rfl, fun i hi => ?_⟩
  rw [loadF_ok (by omega), g2 i (by omega) (by omega)]

/-- The IBM number 1 (0x41100000) in the file reads as 0.5, although the
conversion of the stored bytes is 1. -/
example : (∃ m', fromIBM ⟨4, fun i => [0x41#8, 0x10#8, 0#8, 0#8][i]?.getD 0#8⟩ 0 1 = .ok m' ∧
      loadF m' 0 = .ok 0x3F000000#32) ∧
    IBM.fromIBMToFloat 0x41#8 0x10#8 0#8 0#8 true = .ok 0x3F800000#32 := by
  refine ⟨?_, by decide +kernel⟩
  have h1 : loadF ⟨4, fun i => [0x41#8, 0x10#8, 0#8, 0#8][i]?.getD 0#8⟩ 0 = .ok 0x00001041#32 := by decide +kernel
  have h2 : IBM.fromIBMToFloat (dByte (f2d 0x00001041#32) 0) (dByte (f2d 0x00001041#32) 1) (dByte (f2d 0x00001041#32) 2)
    (dByte (f2d 0x00001041#32) 3) true = .ok 0x3F000000#32 := by decide +kernel
  refine ⟨_, by unfold fromIBM; rw [h1, Res.ok_bind]; simp only; rw [h2, Res.ok_bind]; rfl, by decide +kernel⟩

end Verif.Files
