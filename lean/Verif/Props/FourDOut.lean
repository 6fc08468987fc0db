import Verif.Util.FourDOut
import Verif.Props.FourD
import Verif.Props.FourDIO
import Verif.Props.CopyTool

/-!
# C87: the output files of 4D binning
-/

namespace Verif.FourDOut
open Verif.Rules Verif.Params Verif.Files Verif.Endian Verif.Layout Verif.Util Verif.Flow Verif.FP Verif.Scalar

variable {F K : Type}

/-! ## Reading in any order, with the whole headers -/

theorem spread_rows (ops : FloatOps F) (zero : F) (sprm : Param F) (hs : WF sprm) (hl : HdrLayout sprm.rule)
    (hf : sprm.rule.fullextent = true) (hst : sprm.rule.start = 0) (hc : sprm.c.len ≤ 2 ^ 64) (l : List (Nat × Nat)) :
    ∀ (p : Param F), WF p → p.rule = sprm.rule → (l.map Prod.snd).Nodup → (∀ x ∈ l, x.1 < sprm.sz ∧ x.2 < p.sz) →
    ∃ p', spreadPrm ops sprm 0 p l = .ok p' ∧ WF p' ∧ p'.rule = sprm.rule ∧ p'.sz = p.sz ∧
      (∀ x ∈ l, SameRow p' x.2 sprm x.1) ∧
      ∀ row, row < p.sz → (∀ x ∈ l, row ≠ x.2) → ∀ m e, (m, some e) ∈ sprm.rule.map → item p' row e = item p row e := by
  induction l with
  | nil =>
    intro p hp hr _ _
    exact ⟨p, rfl, hp, hr, rfl, by simp, fun _ _ _ _ _ _ => rfl⟩
  | cons q l ih =>
    intro p hp hr hnd hb
    obtain ⟨n, j⟩ := q
    obtain ⟨hn, hj⟩ := hb (n, j) List.mem_cons_self
    have hnd := List.nodup_cons.mp (show ((j :: l.map Prod.snd)).Nodup from hnd)
    obtain ⟨p1, e1, e2, e3, e4, e5, e6⟩ := cpy_row ops hs hp hr hl hf hst hc hn hj zero
    obtain ⟨p', f1, f2, f3, f4, f5, f6⟩ := ih p1 e2 e3 hnd.2 (fun x hx => by rw [e4]; exact hb x (List.mem_cons_of_mem _ hx))
    refine ⟨p', by unfold spreadPrm; rw [Nat.zero_add, e1, Res.ok_bind]; exact f1, f2, f3, f4.trans e4, ?_, ?_⟩
    · intro x hx
      rcases List.mem_cons.mp hx with rfl | hx
      · intro m e hm
        rw [← e5 m e hm]
        exact f6 j (by rw [e4]; exact hj) (fun y hy he => hnd.1 (List.mem_map.mpr ⟨y, hy, he.symm⟩)) m e hm
      · exact f5 x hx
    · intro row hrow hne m e hm
      rw [f6 row (by rw [e4]; exact hrow) (fun x hx => hne x (List.mem_cons_of_mem _ hx)) m e hm]
      exact e6 row hrow (hne (n, j) List.mem_cons_self) m e hm

theorem nonmono_rows (ops : FloatOps F) (cv : Conv F (BitVec 64)) (hcv : ∀ v, cv.toT v = v) (zero : F) (ns N : Nat)
    (offs idx : List Nat) (t : Arr Byte) (p : Param F) (d : Disk) (hne : offs ≠ [])
    (hidx : idx.Perm (List.range offs.length)) (hsort : (idx.map fun j => offs[j]?.getD 0).Pairwise (· ≤ ·))
    (hN : taddr ns N < 2 ^ 63) (hlt : ∀ k ∈ offs, k < N) (hd : taddr ns N ≤ d.size) (ht : 4 * (ns * offs.length) ≤ t.len)
    (hp : RdOk p) (hpsz : offs.length ≤ p.sz) :
    ∃ t1 p', readNonMonotonic ops cv zero false ns offs idx (some t) (some p) 0 d = .ok (some t1, some p') ∧
      t1.len = t.len ∧ WF p' ∧ p'.rule = p.rule ∧ p'.sz = p.sz ∧
      (∀ i k, offs[i]? = some k → (∀ s, s < ns → sample t1 (i * ns + s) = dsamp d ns k s) ∧
        (p.rule.cnt .copy ≠ 0 → ∀ x, x < 240 → p'.c.val (i * 240 + x) = (dhdr d ns k).val x)) ∧
      ∀ row, row < p.sz → offs.length ≤ row → ∀ m e, (m, some e) ∈ p.rule.map → item p' row e = item p row e := by
  have hlen : idx.length = offs.length := by rw [hidx.length_eq, List.length_range]
  have hvl : (sortedOffs offs idx).length = offs.length := by unfold sortedOffs; rw [List.length_map, hlen]
  have hvlt : ∀ x ∈ sortedOffs offs idx, x < N := by
    intro x hx
    obtain ⟨j, hj, rfl⟩ := List.mem_map.mp hx
    have hj' : j < offs.length := List.mem_range.mp (hidx.mem_iff.mp hj)
    rw [List.getElem?_eq_getElem hj']
    exact hlt _ (List.getElem_mem hj')
  have huInc : (nodups (sortedOffs offs idx)).Pairwise (· < ·) := nodups_inc _ hsort
  have hsm := small_list (ns := ns) hN (fun x hx => hvlt x (nodups_sub _ x hx)) huInc
  have hinc := inc_of_lt huInc
  have hu : ∀ n k, (nodups (sortedOffs offs idx))[n]? = some k → (Where.list (nodups (sortedOffs offs idx))).trace n = k := by
    intro n k h; show (nodups (sortedOffs offs idx))[n]?.getD 0 = k; rw [h]; rfl
  have hul := hsm.cnt
  have hdef : ∃ u, u = nodups (sortedOffs offs idx) := ⟨_, rfl⟩
  obtain ⟨u, hu'⟩ := hdef
  rw [← hu'] at hsm hinc hu hul
  have hmk : RdOk (mk zero p.rule u.length) := ⟨mk_wf zero hp.wf.inv _, hp.layout, hp.full, hp.start, hp.ltn⟩
  obtain ⟨st, sp, e1, -, -, e4, e5⟩ := read_spec ops cv hcv ns (.list u) u.length
    (some (.fill (4 * (ns * u.length)) 0#8)) (some (mk zero p.rule u.length)) 0 d N hsm
    (fun i j h1 h2 => Nat.le_of_lt (hinc i j h1 h2)) (fun i hi => Nat.le_trans (taddr_le (hsm.lt i hi)) hd)
    (fun t h => by
      cases h
      refine ⟨Nat.le_refl _, ?_⟩
      have := sample_bytes hN hul
      rw [Nat.mul_comm u.length] at this
      exact this)
    (fun q h => by cases h; exact ⟨hmk, Nat.le_refl _⟩) (by simp)
  obtain ⟨strc, rfl, gs⟩ := e4 _ rfl
  obtain ⟨sprm, rfl, g⟩ := e5 _ rfl
  have hsr : sprm.rule = p.rule := g.rule
  have hsz : sprm.sz = u.length := g.size
  have hsl : strc.len = 4 * (ns * u.length) := gs.len
  have hpl : ∀ i k, offs[i]? = some k → ∃ n, (n, i) ∈ (places 0 (sortedOffs offs idx)).zip idx ∧ u[n]? = some k := by
    intro i k hk
    have hi : i < offs.length := (List.getElem?_eq_some_iff.mp hk).1
    have hmem : i ∈ idx := hidx.mem_iff.mpr (List.mem_range.mpr hi)
    obtain ⟨j, hj, he⟩ := List.mem_iff_getElem.mp hmem
    obtain ⟨n, h1, -, h3⟩ := places_spec (sortedOffs offs idx) 0 j (by rw [hvl]; omega)
    have hv : (sortedOffs offs idx)[j]? = offs[i]? := by
      unfold sortedOffs
      rw [List.getElem?_map, List.getElem?_eq_getElem hj, he]
      simp [hi]
    rw [Nat.sub_zero, hv, hk] at h3
    refine ⟨n, List.mem_iff_getElem?.mpr ⟨j, ?_⟩, by rw [hu']; exact h3⟩
    rw [List.getElem?_zip_eq_some]
    exact ⟨h1, by rw [List.getElem?_eq_getElem hj, he]⟩
  have hplb : ∀ x ∈ (places 0 (sortedOffs offs idx)).zip idx, x.1 < u.length ∧ x.2 < offs.length := by
    intro x hx
    obtain ⟨j, hj⟩ := List.mem_iff_getElem?.mp hx
    rw [List.getElem?_zip_eq_some] at hj
    have hj2 : j < idx.length := (List.getElem?_eq_some_iff.mp hj.2).1
    obtain ⟨n, h1, -, h3⟩ := places_spec (sortedOffs offs idx) 0 j (by rw [hvl]; omega)
    rw [h1] at hj
    have hn : n = x.1 := by simpa using hj.1
    subst hn
    refine ⟨?_, ?_⟩
    · rw [Nat.sub_zero, List.getElem?_eq_getElem (show j < (sortedOffs offs idx).length by rw [hvl]; omega)] at h3
      rw [hu']
      exact (List.getElem?_eq_some_iff.mp h3).1
    · have : x.2 ∈ idx := List.mem_iff_getElem?.mpr ⟨j, hj.2⟩
      exact List.mem_range.mp (hidx.mem_iff.mp this)
  have hsnd : (((places 0 (sortedOffs offs idx)).zip idx).map Prod.snd) = idx := by
    rw [List.map_snd_zip]
    rw [places_length, hvl, hlen]
  have hnodup : (((places 0 (sortedOffs offs idx)).zip idx).map Prod.snd).Nodup := by
    rw [hsnd]; exact hidx.nodup_iff.mpr List.nodup_range
  have hclen : sprm.c.len ≤ 2 ^ 64 := by
    rw [g.wf.c, hsz]
    split
    · exact copy_bytes hN hul
    · omega
  obtain ⟨p', f1, f2, f3, f4, f5, f6⟩ := spread_rows ops zero sprm g.wf (by rw [hsr]; exact hp.layout)
    (by rw [hsr]; exact hp.full) (by rw [hsr]; exact hp.start) hclen _ p hp.wf hsr.symm hnodup
    (fun x hx => by have := hplb x hx; rw [hsz]; exact ⟨this.1, by omega⟩)
  obtain ⟨t1, k1, k2, k3, -⟩ := spreadTrc_spec ns strc _ t hnodup (fun x hx => by
    obtain ⟨a, b⟩ := hplb x hx
    have a' := base_mono (w := ns) a
    have b' := base_mono (w := ns) b
    rw [Nat.mul_comm x.1, Nat.mul_comm x.2, hsl]
    omega)
  refine ⟨t1, p', ?_, k2, f2, f3.trans hsr, f4, ?_, ?_⟩
  · unfold readNonMonotonic
    simp only [if_neg hne]
    rw [← hu']
    show (readList ops cv false ns u (some (.fill (4 * (ns * u.length)) 0#8)) (some (mk zero p.rule u.length)) 0 d >>= _) = _
    rw [show readList ops cv false ns u (some (.fill (4 * (ns * u.length)) 0#8)) (some (mk zero p.rule u.length)) 0 d =
      .ok (some strc, some sprm) from e1, Res.ok_bind]
    simp only [Option.getD_some]
    rw [f1, Res.ok_bind, k1, Res.ok_bind]
  · intro i k hk
    obtain ⟨n, h1, h2⟩ := hpl i k hk
    have hn : n < u.length := (hplb _ h1).1
    have hw := hu n k h2
    refine ⟨fun s hs => ?_, fun hc x hx => ?_⟩
    · rw [← hw, ← gs.samples n s hn hs]
      refine sample_shift fun y hy => ?_
      have := k3 (n, i) h1 (4 * s + y) (by omega)
      simp only at this
      rw [show 4 * (i * ns + s) + y = 4 * (i * ns) + (4 * s + y) by omega, this,
        show 4 * (n * ns) + (4 * s + y) = 4 * (n * ns + s) + y by omega]
    · obtain ⟨m, e, hm, hk, -⟩ := slot_of hp.wf.inv .copy (Nat.pos_of_ne_zero hc)
      have hrow := f5 (n, i) h1 m e (by rw [hsr]; exact hm)
      unfold item at hrow
      simp only [hk, Sum.inr.injEq] at hrow
      have hrow := congrArg (fun l => l[x]?) hrow
      simp only [List.getElem?_map, List.getElem?_range hx, Option.map_some, Option.some.injEq] at hrow
      rw [hrow, ← hw]
      have := g.raw hc n hn x hx
      rwa [Nat.add_zero] at this
  · intro row hrow hge m e hm
    exact f6 row hrow (fun x hx he => by have := (hplb x hx).2; omega) m e (by rw [hsr]; exact hm)

/-! ## The rule -/

/-- What the output needs of the rule. -/
structure OutOk (printDsr : Bool) (r : Rule) : Prop where
  ok : RuleOk r
  copy : r.cnt .copy ≠ 0
  named : ∀ x, Named r 0 x → printDsr = true ∧ ((214 ≤ x ∧ x < 216) ∨ (224 ≤ x ∧ x < 228))
  cnt : r.cnt .float = if printDsr then 1 else 0
  crit : printDsr = true → ∃ e, floatsOf r.map = [e] ∧ (dsdr, some e) ∈ r.map ∧ e.kind = .float ∧ e.loc = 225 ∧
    e.scalLoc = 215 ∧ e.num = 0

def xr : Rule := okOr ⟨[], fun _ => 0, 0, 0, false, true⟩ (outRule true)

theorem outRule_true : outRule true = .ok xr := rfl

theorem xr_reach : Reachable xr := by
  obtain ⟨r, o, h1, h2, -⟩ := step_spec cr_reach.inv (.addFloat dsdr 225 215) (show dsdr ≠ COPY by decide)
  obtain ⟨r', h3, h4⟩ := of_bind (show (addFloat cr dsdr 225 215 >>= fun r => Res.ok (r, Out.unit)) = _ from h1)
  rw [Res.ok.injEq, Prod.mk.injEq] at h4
  have h5 : outRule true = .ok r' := by
    unfold outRule
    rw [ctor_copy, Res.ok_bind]
    simpa using h3
  rw [outRule_true, Res.ok.injEq] at h5
  rw [h5, h4.1]
  exact Reach.step (op := .addFloat dsdr 225 215) cr_reach (show dsdr ≠ COPY by decide) h1 trivial

theorem xr_full : xr.fullextent = true := rfl
theorem xr_start : xr.start = 0 := rfl
theorem xr_copy : xr.cnt .copy ≠ 0 := by decide +kernel
theorem xr_float : xr.cnt .float = 1 := by decide +kernel
theorem xr_floats : floatsOf xr.map = [⟨.float, 0, 225, 215⟩] := by decide +kernel
theorem xr_mem : (dsdr, some ⟨.float, 0, 225, 215⟩) ∈ xr.map := by decide +kernel

theorem xr_kinds : ∀ m e, (m, some e) ∈ xr.map → (e.kind = .index ∨ e.kind = .copy) ∨ (m = dsdr ∧ e = ⟨.float, 0, 225, 215⟩) := by
  have : ∀ q ∈ xr.map, ∃ e, q.2 = some e ∧ ((e.kind = .index ∨ e.kind = .copy) ∨ (q.1 = dsdr ∧ e = ⟨.float, 0, 225, 215⟩)) := by
    decide +kernel
  intro m e he
  obtain ⟨e', h1, h2⟩ := this _ he
  simp only [Option.some.injEq] at h1
  subst h1
  exact h2

theorem xr_ltn : ∃ e, (ltn, some e) ∈ xr.map ∧ e.kind = .index := by
  have h : ∃ q ∈ xr.map, q.1 = ltn ∧ ∃ e, q.2 = some e ∧ e.kind = .index := by decide +kernel
  obtain ⟨q, h1, h2, e, h3, h4⟩ := h
  exact ⟨e, by rw [← h2, ← h3]; exact h1, h4⟩

attribute [irreducible] xr

theorem xr_valued {m : Nat} {e : Entry} (h : (m, some e) ∈ xr.map) (hv : Valued e.kind) :
    m = dsdr ∧ e = ⟨.float, 0, 225, 215⟩ := by
  rcases xr_kinds m e h with (hk | hk) | h
  · rw [hk] at hv; simp [Valued] at hv
  · rw [hk] at hv; simp [Valued] at hv
  · exact h

theorem xr_layout : HdrLayout xr where
  fits := fun m e h hv => by obtain ⟨-, rfl⟩ := xr_valued h hv; decide
  sfits := fun m e h hk => by obtain ⟨-, rfl⟩ := xr_valued h (by rw [hk]; simp [Valued]); decide
  vv := fun m e m' e' h h' hne hv hv' => absurd ((xr_valued h hv).1.trans (xr_valued h' hv').1.symm) hne
  vs := fun m e m' e' h h' hv hk => by
    obtain ⟨-, rfl⟩ := xr_valued h hv
    obtain ⟨-, rfl⟩ := xr_valued h' (by rw [hk]; simp [Valued])
    simp [DisjF, width]
  ss := fun m e m' e' h h' hk hk' => by
    obtain ⟨-, rfl⟩ := xr_valued h (by rw [hk]; simp [Valued])
    obtain ⟨-, rfl⟩ := xr_valued h' (by rw [hk']; simp [Valued])
    exact Or.inl rfl

theorem outRule_ok (printDsr : Bool) : ∃ r, outRule printDsr = .ok r ∧ OutOk printDsr r ∧ extent r = .ok (r, 240) := by
  cases printDsr with
  | false =>
    refine ⟨cr, by unfold outRule; rw [ctor_copy, Res.ok_bind]; rfl, ⟨cr_ok, cr_copy, ?_, by rw [cr_float]; rfl, by simp⟩,
      by unfold extent; rw [if_pos cr_full]⟩
    rintro x ⟨m, e, he, ⟨hv, -⟩ | ⟨hv, -⟩⟩
    · exact absurd hv (cr_plain m e he)
    · exact absurd (Or.inr (Or.inr hv)) (cr_plain m e he)
  | true =>
    refine ⟨xr, outRule_true, ⟨⟨xr_reach.inv, xr_layout, xr_full, xr_start, xr_ltn⟩, xr_copy, ?_, by rw [xr_float]; rfl,
      fun _ => ⟨_, xr_floats, xr_mem, rfl, rfl, rfl, rfl⟩⟩, by unfold extent; rw [if_pos xr_full]⟩
    rintro x ⟨m, e, he, ⟨hv, h1⟩ | ⟨hv, h1⟩⟩
    · obtain ⟨-, rfl⟩ := xr_valued he hv
      simp only [width] at h1
      exact ⟨rfl, by omega⟩
    · obtain ⟨-, rfl⟩ := xr_valued he (by rw [hv]; simp [Valued])
      exact ⟨rfl, by dsimp only at h1; omega⟩

/-! ## The blocks of a process -/

/-- The criterion can be written. -/
def Good (ops : FloatOps F) (v : F) : Prop :=
  (∃ s, ops.findScalar v = .ok s) ∧ ∀ s, ∃ n, ops.encode v s = .ok n

theorem setDsr_spec (cvd : Conv F K) (minrs : List K) (i : Nat) {r : Rule} (hr : OutOk true r) (n : Nat) :
    ∀ (j : Nat) (p : Param F), WF p → p.rule = r → j + n ≤ p.sz → i + j + n ≤ minrs.length →
    ∃ p', setDsr cvd minrs i p j n = .ok p' ∧ WF p' ∧ p'.rule = r ∧ p'.sz = p.sz ∧ p'.c = p.c ∧
      ∀ x, if j ≤ x ∧ x < j + n then ∃ v, minrs[i + x]? = some v ∧ p'.f.val x = cvd.toF v else p'.f.val x = p.f.val x := by
  obtain ⟨e, -, he, hk, -, -, hnum⟩ := hr.crit rfl
  have hcnt : r.cnt .float = 1 := hr.cnt
  induction n with
  | zero =>
    intro j p hp hpr _ _
    exact ⟨p, rfl, hp, hpr, rfl, rfl, fun x => by rw [if_neg (by omega)]⟩
  | succ n ih =>
    intro j p hp hpr hsz hmin
    have hv : minrs[i + j]? = some minrs[i + j] := List.getElem?_eq_getElem (by omega)
    have hlen : p.f.len = p.sz := by rw [hp.f, hpr, hcnt, Nat.mul_one]
    have hget : getEntry p.rule dsdr = (p.rule, some e) := by
      unfold getEntry; rw [hpr, find_of_mem hr.ok.inv.keys he]
    obtain ⟨f, hf⟩ : ∃ f, p.f.set j (cvd.toF minrs[i + j]) = .ok f := by
      unfold Arr.set; rw [if_pos (by omega)]; exact ⟨_, rfl⟩
    have hf' : f.len = p.f.len ∧ ∀ x, f.val x = if x = j then cvd.toF minrs[i + j] else p.f.val x := by
      unfold Arr.set at hf; rw [if_pos (by omega), Res.ok.injEq] at hf; subst hf; exact ⟨rfl, fun x => rfl⟩
    have hset : setPrm cvd j dsdr minrs[i + j] p = .ok { p with f := f } := by
      unfold setPrm
      rw [hget]
      simp only [hk]
      rw [hpr, hcnt, hnum, Nat.one_mul, Nat.add_zero, hf]; rfl
    obtain ⟨p', e1, e2, e3, e4, e5, e6⟩ := ih (j + 1) { p with f := f }
      ⟨hp.inv, hf'.1.trans hp.f, hp.i, hp.s, hp.t, hp.c⟩ hpr (by show j + 1 + n ≤ p.sz; omega) (by omega)
    refine ⟨p', ?_, e2, e3, e4, e5, fun x => ?_⟩
    · unfold setDsr; rw [hv]; dsimp only; rw [hset, Res.ok_bind, e1]
    · have h6 := e6 x
      by_cases hx : j + 1 ≤ x ∧ x < j + 1 + n
      · rw [if_pos hx] at h6
        rw [if_pos (by omega)]; exact h6
      · rw [if_neg hx] at h6
        have h7 := hf'.2 x
        by_cases hxj : x = j
        · subst hxj
          rw [if_pos (by omega)]
          rw [if_pos rfl] at h7
          exact ⟨_, hv, h6.trans h7⟩
        · rw [if_neg (by omega)]
          rw [if_neg hxj] at h7
          exact h6.trans h7

/-- What the call for block `b` needs and hands over. -/
structure PutOk (ops : FloatOps F) (cvd : Conv F K) (printDsr : Bool) (rule : Rule) (ns : Nat) (d : Disk) (list : List Nat)
    (minrs : List K) (offset : Nat) (b : Nat × Nat) (q : Put F) : Prop where
  pos : q.pos = offset + b.1
  n : q.n = b.2
  prm : PrmOk ops q.prm ∧ q.n ≤ q.prm.sz
  trc : 4 * (ns * q.n) ≤ q.trc.len ∧ q.trc.len ≤ 2 ^ 63
  rule : q.prm.rule = rule
  samples : ∀ i k, i < b.2 → list[b.1 + i]? = some k → ∀ s, s < ns → sample q.trc (i * ns + s) = dsamp d ns k s
  bytes : ∀ i k, i < b.2 → list[b.1 + i]? = some k → ∀ x, x < 240 → q.prm.c.val (i * 240 + x) = (dhdr d ns k).val x
  crit : printDsr = true → ∀ i, i < b.2 → ∃ v, minrs[b.1 + i]? = some v ∧ q.prm.f.val i = cvd.toF v

theorem blockPuts_spec (ops : FloatOps F) (cv : Conv F (BitVec 64)) (hcv : ∀ v, cv.toT v = v) (cvd : Conv F K) (zero : F)
    (idx : List Nat → List Nat) (hidx : IsSortIndex idx) (printDsr : Bool) {rule : Rule} (hr : OutOk printDsr rule)
    (ns N : Nat) (d : Disk) (hN : taddr ns N < 2 ^ 63) (hd : taddr ns N ≤ d.size) (list : List Nat) (hlt : ∀ k ∈ list, k < N)
    (minrs : List K) (hlen : list.length = minrs.length) (hgood : printDsr = true → ∀ v ∈ minrs, Good ops (cvd.toF v))
    (offset S : Nat) (hoff : offset + list.length < 2 ^ 64) (bs : List (Nat × Nat)) :
    (∀ b ∈ bs, 1 ≤ b.2 ∧ b.2 ≤ S ∧ b.1 + b.2 ≤ list.length) → ∀ (t : Arr Byte) (p : Param F), 4 * (ns * S) = t.len → t.len ≤ 2 ^ 63 →
    WF p → p.rule = rule → p.sz = S → (∀ x, x < p.f.len → Good ops (p.f.val x)) →
    ∃ qs, blockPuts ops cv cvd zero idx printDsr false ns d list minrs offset bs t p = .ok qs ∧
      List.Forall₂ (PutOk ops cvd printDsr rule ns d list minrs offset) bs qs := by
  induction bs with
  | nil => intro _ t p _ _ _ _ _ _; exact ⟨[], rfl, .nil⟩
  | cons b bs ih =>
    intro hb t p ht ht2 hp hpr hpz hpg
    obtain ⟨b1, b2, b3⟩ := hb b List.mem_cons_self
    have hol : ((list.drop b.1).take b.2).length = b.2 := by
      rw [List.length_take, List.length_drop]; omega
    have hget : ∀ i k, i < b.2 → list[b.1 + i]? = some k → ((list.drop b.1).take b.2)[i]? = some k := by
      intro i k hi h
      rw [List.getElem?_take_of_lt hi, List.getElem?_drop, h]
    have hrd : RdOk p := ⟨hp, by rw [hpr]; exact hr.ok.layout, by rw [hpr]; exact hr.ok.full,
      by rw [hpr]; exact hr.ok.start, by rw [hpr]; exact hr.ok.ltn⟩
    obtain ⟨i1, i2⟩ := hidx ((list.drop b.1).take b.2)
    have hns : ns * b.2 ≤ ns * S := Nat.mul_le_mul_left _ b2
    obtain ⟨t1, p1, e1, e2, e3, e4, e5, e6, e7⟩ := nonmono_rows ops cv hcv zero ns N ((list.drop b.1).take b.2)
      (idx ((list.drop b.1).take b.2)) t p d (by intro h; rw [h] at hol; simp at hol; omega) i1 i2 hN
      (fun k hk => hlt k (List.mem_of_mem_drop (List.mem_of_mem_take hk))) hd (by rw [hol]; omega) hrd (by rw [hol]; omega)
    rw [hpr] at e4
    -- the criteria
    obtain ⟨p2, g1, g2, g3, g4, g5, g6, g7⟩ : ∃ p2, (if printDsr then setDsr cvd minrs b.1 p1 0 b.2 else .ok p1) = .ok p2 ∧
        WF p2 ∧ p2.rule = rule ∧ p2.sz = S ∧ p2.c = p1.c ∧ (∀ x, x < p2.f.len → Good ops (p2.f.val x)) ∧
        (printDsr = true → ∀ i, i < b.2 → ∃ v, minrs[b.1 + i]? = some v ∧ p2.f.val i = cvd.toF v) := by
      cases printDsr with
      | false =>
        refine ⟨p1, rfl, e3, e4, e5.trans hpz, rfl, fun x hx => ?_, by simp⟩
        rw [e3.f, e4, hr.cnt] at hx
        simp at hx
      | true =>
        obtain ⟨p2, q1, q2, q3, q4, q5, q6⟩ := setDsr_spec cvd minrs b.1 hr b.2 0 p1 e3 e4 (by omega) (by omega)
        have hc1 : rule.cnt .float = 1 := hr.cnt
        refine ⟨p2, q1, q2, q3, q4.trans (e5.trans hpz), q5, fun x hx => ?_, fun _ i hi => ?_⟩
        · rw [q2.f, q3, hc1, Nat.mul_one, q4] at hx
          have h6 := q6 x
          by_cases hx2 : 0 ≤ x ∧ x < 0 + b.2
          · rw [if_pos hx2] at h6
            obtain ⟨v, hv, h6⟩ := h6
            rw [h6]
            exact hgood rfl v (List.mem_of_getElem? hv)
          · rw [if_neg hx2] at h6
            obtain ⟨e, -, he, hk, -, -, hnum⟩ := hr.crit rfl
            have h7 := e7 x (by omega) (by rw [hol]; omega) dsdr e (by rw [hpr]; exact he)
            unfold item at h7
            simp only [hk, hnum, e4, hpr, hc1, Nat.one_mul, Nat.add_zero, Sum.inl.injEq] at h7
            rw [h6, h7]
            exact hpg x (by rw [hp.f, hpr, hc1]; omega)
        · have h6 := q6 i
          rw [if_pos (by omega)] at h6
          exact h6
    obtain ⟨qs, k1, k2⟩ := ih (fun c hc => hb c (List.mem_cons_of_mem _ hc)) t1 p2 (by rw [e2]; exact ht) (by rw [e2]; exact ht2)
      g2 g3 g4 g6
    refine ⟨⟨add64 offset b.1, b.2, t1, p2⟩ :: qs, ?_, .cons ⟨add64_eq (by omega), rfl, ⟨⟨g2, by rw [g3]; exact hr.ok.layout,
      by rw [g3]; exact hr.ok.full, by rw [g3]; exact hr.ok.start, fun x hx => (g6 x hx).1, fun x hx => (g6 x hx).2⟩,
      by show b.2 ≤ p2.sz; omega⟩, ⟨by show 4 * (ns * b.2) ≤ t1.len; omega, by rw [e2]; exact ht2⟩, g3, ?_, ?_, g7⟩ k2⟩
    · obtain ⟨bi, bn⟩ := b
      rw [blockPuts]
      dsimp only at e1 g1 k1 ⊢
      rw [e1, Res.ok_bind]
      dsimp only
      cases printDsr with
      | false =>
        simp only [Bool.false_eq_true, if_false] at g1 ⊢
        rw [g1, Res.ok_bind, k1, Res.ok_bind]
      | true =>
        simp only [if_true] at g1 ⊢
        rw [g1, Res.ok_bind, k1, Res.ok_bind]
    · intro i k hi hk
      exact (e6 i k (hget i k hi hk)).1
    · intro i k hi hk x hx
      show p2.c.val _ = _
      rw [g5]
      exact (e6 i k (hget i k hi hk)).2 (by rw [hpr]; exact hr.copy) x hx

/-! ## The calls of all processes -/

/-- Trace `k'` of `o` is trace `k` of `d`: all bytes of header and samples are the same, except that with `printDsr` bytes
215-216 and 225-228 of the header hold the scalar and the number `v` is written with. -/
structure Copied (ops : FloatOps F) (printDsr : Bool) (ns : Nat) (d : Disk) (k : Nat) (o : Disk) (k' : Nat) (v : F) :
    Prop where
  bytes : ∀ x, x < 240 + 4 * ns → ¬ (printDsr = true ∧ ((214 ≤ x ∧ x < 216) ∨ (224 ≤ x ∧ x < 228))) →
    recByte o ns k' x = recByte d ns k x
  crit : printDsr = true → ∃ s n, ops.findScalar v = .ok s ∧ ops.encode v s = .ok n ∧
    fromBE16 (recByte o ns k' 214) (recByte o ns k' 215) = s ∧
    fromBE32 (recByte o ns k' 224) (recByte o ns k' 225) (recByte o ns k' 226) (recByte o ns k' 227) = n

theorem Copied.congr {ops : FloatOps F} {printDsr : Bool} {ns k k' : Nat} {d o o' : Disk} {v : F}
    (h : Copied ops printDsr ns d k o k' v)
    (he : ∀ x, taddr ns k' ≤ x ∧ x < taddr ns k' + (240 + 4 * ns) → o'.byte x = o.byte x) :
    Copied ops printDsr ns d k o' k' v := by
  have hb : ∀ x, x < 240 + 4 * ns → recByte o' ns k' x = recByte o ns k' x := by
    intro x hx
    unfold recByte
    unfold taddr at he
    exact he _ (by omega)
  refine ⟨fun x hx hn => by rw [hb x hx]; exact h.bytes x hx hn, fun hp => ?_⟩
  rw [hb 214 (by omega), hb 215 (by omega), hb 224 (by omega), hb 225 (by omega), hb 226 (by omega), hb 227 (by omega)]
  exact h.crit hp

theorem joinScal_one (b : BitVec 16) : joinScal 1#16 b = b := by
  unfold joinScal
  have h1 : (1#16 : BitVec 16).toInt = 1 := by decide
  rw [h1]
  split
  · split
    · rfl
    · exact BitVec.eq_of_toInt_eq (by omega)
  · split
    · rfl
    · exact BitVec.eq_of_toInt_eq (by omega)

theorem sample_record {ns : Nat} {d o : Disk} {k k' : Nat} (h : ∀ s, s < ns → dsamp o ns k' s = dsamp d ns k s) {x : Nat}
    (h1 : 240 ≤ x) (h2 : x < 240 + 4 * ns) : recByte o ns k' x = recByte d ns k x := by
  have hs := h ((x - 240) / 4) (by omega)
  unfold dsamp dword at hs
  obtain ⟨q0, q1, q2, q3⟩ := word_inj hs
  unfold recByte
  have hm : (x - 240) % 4 = 0 ∨ (x - 240) % 4 = 1 ∨ (x - 240) % 4 = 2 ∨ (x - 240) % 4 = 3 := by omega
  generalize 3600 + k' * (240 + 4 * ns) = a at *
  generalize 3600 + k * (240 + 4 * ns) = b at *
  rcases hm with hm | hm | hm | hm
  · rw [show a + x = a + 240 + 4 * ((x - 240) / 4) by omega, show b + x = b + 240 + 4 * ((x - 240) / 4) by omega, q0]
  · rw [show a + x = a + 240 + 4 * ((x - 240) / 4) + 1 by omega, show b + x = b + 240 + 4 * ((x - 240) / 4) + 1 by omega, q1]
  · rw [show a + x = a + 240 + 4 * ((x - 240) / 4) + 2 by omega, show b + x = b + 240 + 4 * ((x - 240) / 4) + 2 by omega, q2]
  · rw [show a + x = a + 240 + 4 * ((x - 240) / 4) + 3 by omega, show b + x = b + 240 + 4 * ((x - 240) / 4) + 3 by omega, q3]

/-- The rows of a call, as they are in the file. -/
def RowsIn (ops : FloatOps F) (ns : Nat) (q : Put F) (o : Disk) : Prop :=
  ∀ i, i < q.n → (∀ s, s < ns → dsamp o ns (q.pos + i) s = sample q.trc (i * ns + s)) ∧
    Header (fsOf ops) (enOf ops) q.prm i (dhdr o ns (q.pos + i))

theorem putAll_spec (ops : FloatOps F) (ns N : Nat) (hN : taddr ns N < 2 ^ 63) (l : List (Put F)) : ∀ o : Disk,
    (∀ q ∈ l, PrmOk ops q.prm ∧ q.n ≤ q.prm.sz ∧ 4 * (ns * q.n) ≤ q.trc.len ∧ q.trc.len ≤ 2 ^ 63 ∧ q.pos + q.n ≤ N) →
    (l.flatMap fun q => List.range' q.pos q.n).Nodup →
    ∃ o', putAll ops ns l o = .ok o' ∧ (∀ q ∈ l, RowsIn ops ns q o') ∧
      ∀ x, (∀ k ∈ l.flatMap fun q => List.range' q.pos q.n, ¬ (taddr ns k ≤ x ∧ x < taddr ns k + (240 + 4 * ns))) →
        o'.byte x = o.byte x := by
  have hnt := nt_lt hN
  induction l with
  | nil => intro o _ _; exact ⟨o, rfl, by simp, fun _ _ => rfl⟩
  | cons q l ih =>
    intro o hq hn
    rw [List.flatMap_cons, List.nodup_append] at hn
    obtain ⟨c1, c2, c3, c4, c5⟩ := hq q List.mem_cons_self
    have hsm : Files.Small ns (.start q.pos) q.n N := by
      have hcl : clamp N q.pos q.n = q.n := by rw [clamp_eq (by omega) (by omega) (by omega)]; omega
      have := clamp_small (sz := q.n) hN (show q.pos ≤ N by omega) (by omega)
      rwa [hcl] at this
    have htr : ∀ j, j < q.n → (Where.start q.pos).trace j = q.pos + j := fun j hj => hsm.trace_start hj
    obtain ⟨o1, w1, w5, w6, w3, -, -, -⟩ := write_spec ops ns (.start q.pos) q.n (some q.trc) (some q.prm) 0 o N hsm
      (fun a b hab hb => by rw [htr a (by omega), htr b hb]; omega)
      (by rintro t h; cases h; exact ⟨c3, c4⟩) (by rintro p h; cases h; exact ⟨c1, c2⟩) (by simp)
    obtain ⟨o2, g1, g3, g4⟩ := ih o1 (fun x hx => hq x (List.mem_cons_of_mem _ hx)) hn.2.1
    have hkeep : ∀ j, j < q.n → ∀ x, taddr ns (q.pos + j) ≤ x ∧ x < taddr ns (q.pos + j) + (240 + 4 * ns) →
        o2.byte x = o1.byte x := by
      intro j hj x hx
      refine g4 x fun k hk hc => ?_
      have hne : q.pos + j ≠ k := fun he => hn.2.2 (q.pos + j) (by rw [List.mem_range'_1]; omega) k hk he
      exact apart (k := q.pos + j) (k' := k) (a := 0) (c := 0) hx (Nat.le_refl _) (Nat.le_refl _) (fun he => absurd he hne) hc
    refine ⟨o2, ?_, ?_, ?_⟩
    · unfold putAll
      rw [w1, Res.ok_bind]
      exact g1
    · intro b hb
      rcases List.mem_cons.1 hb with rfl | hb
      · intro j hj
        refine ⟨fun s hs => ?_, Header.congr c1.layout (by have := w6 _ rfl j hj; rwa [htr j hj] at this) ?_⟩
        · have := w5 _ rfl j s hj hs
          rw [htr j hj] at this
          rw [dsamp_congr hs fun x hx => hkeep j hj x ⟨by omega, hx.2⟩]
          exact this
        · intro x hx
          refine hkeep j hj _ ⟨?_, ?_⟩ <;> (unfold taddr; omega)
      · exact g3 b hb
    · intro x hx
      rw [g4 x fun k hk => hx k (by rw [List.flatMap_cons]; exact List.mem_append.2 (Or.inr hk))]
      refine w3 x fun j hj => ?_
      have := hx (q.pos + j) (by rw [List.flatMap_cons, List.mem_append, List.mem_range'_1]; left; omega)
      rw [htr j hj]
      exact ⟨fun _ => by omega, fun _ => by omega⟩

theorem PutOk.copied {ops : FloatOps F} {cvd : Conv F K} {printDsr : Bool} {rule : Rule} (hr : OutOk printDsr rule) {ns : Nat}
    {d : Disk} {list : List Nat} {minrs : List K} {offset : Nat} {b : Nat × Nat} {q : Put F}
    (h : PutOk ops cvd printDsr rule ns d list minrs offset b q)
    {o : Disk} (hin : RowsIn ops ns q o) {i k : Nat} {v : K} (hi : i < b.2) (hk : list[b.1 + i]? = some k)
    (hv : minrs[b.1 + i]? = some v) : Copied ops printDsr ns d k o (offset + (b.1 + i)) (cvd.toF v) := by
  obtain ⟨h1, h2⟩ := hin i (by rw [h.n]; exact hi)
  rw [h.pos, Nat.add_assoc] at h1 h2
  refine ⟨fun x hx hn => ?_, fun hp => ?_⟩
  · by_cases hlt : x < 240
    · have h3 := h2.rest x hlt (fun hnm => hn (hr.named x (by rw [← h.rule]; exact hnm)))
      rw [h.rule, if_pos hr.copy, h.bytes i k hi hk x hlt] at h3
      exact h3
    · exact sample_record (fun s hs => by rw [h1 s hs, h.samples i k hi hk s hs]) (by omega) hx
  · obtain ⟨e, f1, f2, f3, f4, f5, f6⟩ := hr.crit hp
    obtain ⟨w, hw, hw2⟩ := h.crit hp i hi
    rw [hv, Option.some.injEq] at hw
    subst hw
    have hcnt : rule.cnt .float = 1 := by rw [hr.cnt, hp]; rfl
    have hfv : fval q.prm i e = cvd.toF v := by
      unfold fval; rw [h.rule, hcnt, f6, Nat.mul_one, Nat.add_zero, hw2]
    have hlen : i < q.prm.f.len := by
      rw [h.prm.1.wf.f, h.rule, hcnt, Nat.mul_one]
      exact Nat.lt_of_lt_of_le hi (by rw [← h.n]; exact h.prm.2)
    obtain ⟨s, hs⟩ := h.prm.1.fs i hlen
    obtain ⟨n, hn⟩ := h.prm.1.en i hlen s
    rw [hw2] at hs hn
    have hsc : scalarOf (fsOf ops) q.prm i e.scalLoc = s := by
      unfold scalarOf scalFold
      rw [h.rule, f1]
      simp only [List.foldl_cons, List.foldl_nil, if_true, hfv]
      rw [joinScal_one]
      unfold fsOf; rw [hs]; rfl
    obtain ⟨-, -, h3⟩ := h2.items dsdr e (by rw [h.rule]; exact f2)
    obtain ⟨h4, h5⟩ := h3 f3
    rw [hsc] at h4 h5
    rw [f5] at h4
    rw [f4, hfv] at h5
    refine ⟨s, n, hs, hn, h4, ?_⟩
    rw [show enOf ops (cvd.toF v) s = n by unfold enOf; rw [hn]; rfl] at h5
    exact h5

/-! ## The shares -/

/-- The first output trace of process `r`. -/
def first (lists : List (List Nat × List K)) (r : Nat) : Nat := ((lists.map fun l => l.1.length).take r).sum

/-- The number of traces of all processes. -/
def total (lists : List (List Nat × List K)) : Nat := (lists.map fun l => l.1.length).sum

theorem outShares_snd (rank : Nat) : ∀ (ns : List Nat) (i o s b : Nat), s + ns.sum < 2 ^ 64 →
    (outShares rank i ns (o, s, b)).2 = (s + ns.sum, ns.foldl max b) := by
  intro ns
  induction ns with
  | nil => intro i o s b _; rfl
  | cons n ns ih =>
    intro i o s b h
    rw [List.sum_cons] at h
    unfold outShares
    rw [add64_eq (by omega), ih _ _ _ _ (by omega), List.sum_cons, List.foldl_cons, Nat.add_assoc]

theorem first_succ {lists : List (List Nat × List K)} {r : Nat} (hr : r < lists.length) :
    first lists (r + 1) = first lists r + lists[r].1.length := by
  unfold first
  rw [List.take_add_one, List.getElem?_map, List.getElem?_eq_getElem hr]
  simp

theorem first_le (lists : List (List Nat × List K)) (r : Nat) : first lists r ≤ total lists := by
  unfold first total
  conv_rhs => rw [← List.take_append_drop r (lists.map fun l => l.1.length), List.sum_append]
  omega

theorem first_last (lists : List (List Nat × List K)) : first lists lists.length = total lists := by
  unfold first total
  rw [List.take_of_length_le (by simp)]

/-- The largest number of traces of a process. -/
def biggest (lists : List (List Nat × List K)) : Nat := (lists.map fun l => l.1.length).foldl max 0

theorem sharesOf_eq {lists : List (List Nat × List K)} (h : total lists < 2 ^ 64) {r : Nat} (hr : r < lists.length) :
    sharesOf lists r = (first lists r, total lists, biggest lists) := by
  have h1 := outShares_fst r (lists.map fun l => l.1.length) 0 0 0 0 (by unfold total at h; omega)
  have h2 := outShares_snd r (lists.map fun l => l.1.length) 0 0 0 0 (by unfold total at h; omega)
  rw [if_pos (by rw [List.length_map]; omega), Nat.sub_zero, Nat.zero_add] at h1
  rw [Nat.zero_add] at h2
  exact Prod.ext h1 h2

theorem le_biggest {lists : List (List Nat × List K)} {r : Nat} (hr : r < lists.length) :
    lists[r].1.length ≤ biggest lists :=
  (le_foldl_max _ 0).2 _ (List.mem_map.2 ⟨lists[r], List.getElem_mem hr, rfl⟩)

theorem biggest_le (lists : List (List Nat × List K)) : biggest lists ≤ total lists := by
  refine foldl_max_le _ _ _ (Nat.zero_le _) ?_
  intro x hx
  exact List.le_sum_of_mem hx

theorem ranges_flat (lists : List (List Nat × List K)) (m : Nat) (hm : m ≤ lists.length) :
    ((List.range m).flatMap fun r => List.range' (first lists r) (lists.getD r ([], [])).1.length) =
      List.range (first lists m) := by
  induction m with
  | zero => rfl
  | succ m ih =>
    have hget : lists.getD m ([], []) = lists[m] := by
      rw [List.getD_eq_getElem?_getD, List.getElem?_eq_getElem (by omega)]; rfl
    rw [List.range_succ, List.flatMap_append, ih (by omega), List.flatMap_cons, List.flatMap_nil, List.append_nil, hget,
      first_succ (by omega), List.range_eq_range', List.range_eq_range', ← List.range'_append_1, Nat.zero_add]

/-- Element `j` of the traces of all processes is one of a process. -/
theorem flat_get (lists : List (List Nat × List K)) (hlen : ∀ l ∈ lists, l.1.length = l.2.length) : ∀ (j : Nat) (k : Nat) (v : K),
    (lists.flatMap fun l => l.1.zip l.2)[j]? = some (k, v) →
    ∃ r i, ∃ h : r < lists.length, lists[r].1[i]? = some k ∧ lists[r].2[i]? = some v ∧ j = first lists r + i := by
  induction lists with
  | nil => intro j k v h; simp at h
  | cons l lists ih =>
    intro j k v h
    have hl := hlen l List.mem_cons_self
    have hz : (l.1.zip l.2).length = l.1.length := by rw [List.length_zip]; omega
    rw [List.flatMap_cons] at h
    rcases Nat.lt_or_ge j l.1.length with hj | hj
    · rw [List.getElem?_append_left (by omega), List.getElem?_zip_eq_some] at h
      exact ⟨0, j, by simp, h.1, h.2, by simp [first]⟩
    · rw [List.getElem?_append_right (by omega), hz] at h
      obtain ⟨r, i, hr, h1, h2, h3⟩ := ih (fun x hx => hlen x (List.mem_cons_of_mem _ hx)) _ _ _ h
      refine ⟨r + 1, i, by simpa using hr, h1, h2, ?_⟩
      have : first (l :: lists) (r + 1) = l.1.length + first lists r := by simp [first]
      omega

theorem outMax_pos {ns : Nat} (h : ns ≤ 32767) : 1 ≤ outMax ns 240 ∧ outMax ns 240 ≤ 2 ^ 30 := by
  unfold outMax getDOSz
  have e : add64 (mul64 4 (add64 getMDSz (getDFSz ns))) (mul64 4 240) = 4 * (240 + 4 * ns) + 960 := by
    unfold getMDSz getDFSz
    rw [mul64_eq (a := ns) (by omega), add64_eq (a := 240) (by omega), mul64_eq (by omega), mul64_eq (by omega), add64_eq (by omega)]
    omega
  rw [e]
  exact ⟨by rw [Nat.le_div_iff_mul_le (by omega)]; omega, Nat.div_le_self _ _⟩

/-! ## One process -/

theorem puts_ranges {ops : FloatOps F} {cvd : Conv F K} {printDsr : Bool} {rule : Rule} {ns : Nat} {d : Disk} {list : List Nat}
    {minrs : List K} {offset : Nat} {bs : List (Nat × Nat)} {qs : List (Put F)}
    (h : List.Forall₂ (PutOk ops cvd printDsr rule ns d list minrs offset) bs qs) :
    (qs.flatMap fun q => List.range' q.pos q.n) = (bs.flatMap fun b => List.range' b.1 b.2).map (offset + ·) := by
  induction h with
  | nil => rfl
  | cons hb _ ih =>
    rw [List.flatMap_cons, List.flatMap_cons, List.map_append, ih, hb.pos, hb.n, List.map_add_range']

theorem proc_spec (ops : FloatOps F) (cv : Conv F (BitVec 64)) (hcv : ∀ v, cv.toT v = v) (cvd : Conv F K) (zero : F)
    (idx : List Nat → List Nat) (hidx : IsSortIndex idx) (printDsr : Bool) {rule : Rule} (hr : OutOk printDsr rule)
    (ns N max : Nat) (hmax : 1 ≤ max) (d : Disk) (hN : taddr ns N < 2 ^ 63) (hd : taddr ns N ≤ d.size)
    (lists : List (List Nat × List K)) (hlen : ∀ l ∈ lists, l.1.length = l.2.length) (hlt : ∀ l ∈ lists, ∀ k ∈ l.1, k < N)
    (hgood : printDsr = true → Good ops zero ∧ ∀ l ∈ lists, ∀ v ∈ l.2, Good ops (cvd.toF v))
    (hT : taddr ns (total lists) < 2 ^ 63) (r : Nat) (hrl : r < lists.length) :
    ∃ qs, procPuts ops cv cvd zero idx printDsr false rule ns max d lists r = .ok qs ∧
      List.Forall₂ (PutOk ops cvd printDsr rule ns d lists[r].1 lists[r].2 (first lists r))
        (pieces lists[r].1.length max lists[r].1.length 0) qs := by
  have hnt := nt_lt hT
  have hget : lists.getD r ([], []) = lists[r] := by
    rw [List.getD_eq_getElem?_getD, List.getElem?_eq_getElem hrl]; rfl
  have hf := first_succ hrl
  have hf2 := first_le lists (r + 1)
  have hmem : lists[r] ∈ lists := List.getElem_mem hrl
  obtain ⟨-, -, p3⟩ := pieces_spec lists[r].1.length max hmax lists[r].1.length 0 (by omega)
  unfold procPuts
  simp only [hget, sharesOf_eq (by omega) hrl]
  have hn : Nat.min lists[r].1.length max ≤ total lists := by
    have : Nat.min lists[r].1.length max ≤ lists[r].1.length := Nat.min_le_left _ _
    omega
  have hb := sample_bytes hT hn
  rw [Nat.mul_comm (Nat.min _ _)] at hb
  refine blockPuts_spec ops cv hcv cvd zero idx hidx printDsr hr ns N d hN hd _ (hlt _ hmem) _ (hlen _ hmem)
    (fun h v hv => (hgood h).2 _ hmem v hv) _ (Nat.min lists[r].1.length max) (by omega) _ ?_ _ _ rfl hb
    (mk_wf zero hr.ok.inv _) rfl rfl ?_
  · intro b hb
    obtain ⟨h1, h2, h3⟩ := p3 b hb
    exact ⟨h1, Nat.le_min.2 ⟨by omega, h2⟩, h3⟩
  · intro x hx
    cases printDsr with
    | false =>
      have : (mk zero rule (Nat.min lists[r].1.length max)).f.len = 0 := by
        rw [(mk_wf zero hr.ok.inv _).f]
        show _ * rule.cnt .float = 0
        rw [hr.cnt]; rfl
      omega
    | true => exact (hgood rfl).1

/-! ## The header -/

/-- The calls of `writeTrace` of process `r`. -/
def putCalls (lists : List (List Nat × List K)) (max r : Nat) : List (Nat × Nat) :=
  (pieces (lists.getD r ([], [])).1.length max (lists.getD r ([], [])).1.length 0).map (fun b => (first lists r + b.1, b.2)) ++
    List.replicate ((biggest lists + (max - 1)) / max - ((lists.getD r ([], [])).1.length + (max - 1)) / max) (0, 0)

theorem putCalls_spec {lists : List (List Nat × List K)} {max r : Nat} (hm : 1 ≤ max) (hr : r < lists.length) :
    (putCalls lists max r).length = (biggest lists + (max - 1)) / max ∧
      ∀ c ∈ putCalls lists max r, c.1 + c.2 ≤ total lists := by
  have hget : lists.getD r ([], []) = lists[r] := by
    rw [List.getD_eq_getElem?_getD, List.getElem?_eq_getElem hr]; rfl
  have hle := le_biggest hr
  have hmono : (lists[r].1.length + (max - 1)) / max ≤ (biggest lists + (max - 1)) / max := Nat.div_le_div_right (by omega)
  have hf := first_succ hr
  have hf2 := first_le lists (r + 1)
  obtain ⟨p1, -, p3⟩ := pieces_spec lists[r].1.length max hm lists[r].1.length 0 (by omega)
  unfold putCalls
  rw [hget]
  constructor
  · rw [List.length_append, List.length_map, p1, List.length_replicate, Nat.sub_zero]
    omega
  · intro c hc
    rcases List.mem_append.1 hc with hc | hc
    · obtain ⟨b, hb, rfl⟩ := List.mem_map.1 hc
      have := p3 b hb
      dsimp only; omega
    · rw [List.eq_of_mem_replicate hc]; dsimp only; omega

/-- The header calls. -/
def headerOf (ns : Nat) (inc : ℚ) (sz : Nat) : W := (((W.new.writeText title).writeNt sz).writeInc inc).writeNs ns

theorem writerOn_eq {lists : List (List Nat × List K)} {max r ns : Nat} {inc : ℚ} (hm : 1 ≤ max) (hm2 : max ≤ 2 ^ 30)
    (hr : r < lists.length) (hT : total lists < 2 ^ 63) :
    writerOn ns inc max lists r =
      .ok ((putCalls lists max r).foldl (fun w c => w.writeTrace c.1 c.2) (headerOf ns inc (total lists))) := by
  have hget : lists.getD r ([], []) = lists[r] := by
    rw [List.getD_eq_getElem?_getD, List.getElem?_eq_getElem hr]; rfl
  have hf := first_succ hr
  have hf2 := first_le lists (r + 1)
  have hb := biggest_le lists
  obtain ⟨-, -, p3⟩ := pieces_spec lists[r].1.length max hm lists[r].1.length 0 (by omega)
  unfold writerOn
  simp only [sharesOf_eq (show total lists < 2 ^ 64 by omega) hr]
  rw [hget, calls_eq hm (le_biggest hr) (by omega), Res.ok_bind]
  unfold putCalls headerOf
  rw [hget]
  congr 3
  refine List.map_congr_left fun b hb => ?_
  have := p3 b hb
  rw [add64_eq (by omega)]

/-- The calls of all processes as a history. -/
def history (lists : List (List Nat × List K)) (ns : Nat) (inc : ℚ) (max : Nat) : List Files.Step :=
  [.text title, .nt (total lists), .inc inc, .ns ns] ++
    (List.range ((biggest lists + (max - 1)) / max)).map fun c => .write fun r => (putCalls lists max r)[c]?.getD (0, 0)

theorem history_eq {lists : List (List Nat × List K)} {ns : Nat} {inc : ℚ} {max r : Nat} (hm : 1 ≤ max) (hr : r < lists.length) :
    (putCalls lists max r).foldl (fun w c => w.writeTrace c.1 c.2) (headerOf ns inc (total lists)) =
      runW1 r (history lists ns inc max) := by
  unfold runW1 history
  rw [List.foldl_append, CCopy.foldl_writes r (fun r c => (putCalls lists max r)[c]?.getD (0, 0)), ← (putCalls_spec hm hr).1]
  have : (List.range (putCalls lists max r).length).map (fun c => (putCalls lists max r)[c]?.getD (0, 0)) =
      putCalls lists max r := by
    apply List.ext_getElem
    · simp
    · intro n h1 h2
      simp [h2]
  rw [this]
  rfl

theorem history_count {lists : List (List Nat × List K)} {ns : Nat} {inc : ℚ} {max : Nat} (hm : 1 ≤ max) :
    IsCount lists.length (history lists ns inc max) (total lists) := by
  refine Or.inl ⟨[.text title], .inc inc :: .ns ns :: (List.range ((biggest lists + (max - 1)) / max)).map fun c =>
      .write fun r => (putCalls lists max r)[c]?.getD (0, 0), rfl, ?_, fun r hr => ⟨?_, ?_, ?_⟩⟩
  · exact CCopy.last_write Files.Step.nt? (fun _ => rfl) (List.range ((biggest lists + (max - 1)) / max)) (fun c r =>
      (putCalls lists max r)[c]?.getD (0, 0)) [.inc inc, .ns ns]
  · intro f hf
    simp only [List.mem_cons, List.mem_map, List.mem_range, reduceCtorEq, false_or] at hf
    obtain ⟨c, hc, hf⟩ := hf
    cases hf
    dsimp only
    rw [← (putCalls_spec hm hr).1] at hc
    rw [List.getElem?_eq_getElem hc]
    exact (putCalls_spec hm hr).2 _ (List.getElem_mem hc)
  · intro f hf
    simp only [List.mem_cons, List.mem_map, reduceCtorEq, false_or, and_false, exists_false] at hf
  · intro f hf
    simp only [List.mem_cons, List.mem_map, reduceCtorEq, false_or, and_false, exists_false] at hf

theorem headerOf_ok {ns sz : Nat} {inc : ℚ} (h1 : ns ≤ 32767) (hinc : (2 : ℚ) ^ (-1022 : ℤ) ≤ |inc|) :
    (headerOf ns inc sz).err = false ∧ (headerOf ns inc sz).nsSet = true := by
  unfold headerOf
  have ht : (W.new.writeText title).err = false := by unfold W.writeText; split <;> rfl
  have hc : ∀ w : W, w.err = false → (w.writeNt sz).err = false := by
    intro w h; unfold W.writeNt; split <;> exact h
  have hn : ∀ w : W, w.err = false → (w.writeNs ns).err = false ∧ (w.writeNs ns).nsSet = true := by
    intro w h; unfold W.writeNs; rw [if_neg (by omega)]; split <;> exact ⟨h, rfl⟩
  obtain ⟨b1, -⟩ := W.writeInc_ok (w := (W.new.writeText title).writeNt sz) hinc
  exact hn _ (by rw [b1]; exact hc _ ht)

theorem title_chr : ∀ x ∈ title, x < 256 := by decide +kernel

theorem close_out {lists : List (List Nat × List K)} {ns : Nat} {inc : ℚ} {max : Nat} (hm : 1 ≤ max) (hP : 0 < lists.length)
    (h0 : 0 < ns) (h1 : ns ≤ 32767) (hT : taddr ns (total lists) < 2 ^ 63) (hinc : (2 : ℚ) ^ (-1022 : ℤ) ≤ |inc|) {m : ℤ}
    (hm0 : -2 ^ 63 ≤ m) (hm1 : m < 2 ^ 63) (hmi : lround (rnd (inc / micro)) = m) (o : Disk) :
    ∃ o', close ((List.range lists.length).map fun r => (putCalls lists max r).foldl (fun w c => w.writeTrace c.1 c.2)
        (headerOf ns inc (total lists))) o = .ok o' ∧
      o'.size = plainSz (total lists) ns ∧ (∀ x, 3600 ≤ x → o'.byte x = o.byte x) ∧
      openRead o' = .ok ⟨ns, total lists, rnd (micro * (BitVec.ofInt 16 m).toInt), 5#16, CharEnc.readText (shown title)⟩ := by
  have heq : ((List.range lists.length).map fun r => (putCalls lists max r).foldl (fun w c => w.writeTrace c.1 c.2)
      (headerOf ns inc (total lists))) = runAllW lists.length (history lists ns inc max) :=
    List.map_congr_left fun r hr => history_eq hm (List.mem_range.1 hr)
  have hl : ∀ {α : Type} (sel : Files.Step → Option α), (∀ f, sel (.write f) = none) →
      last? sel (history lists ns inc max) = last? sel [.text title, .nt (total lists), .inc inc, .ns ns] :=
    fun sel hs => CCopy.last_write sel hs _ (fun c r => (putCalls lists max r)[c]?.getD (0, 0)) _
  rw [heq]
  have := close_stored lists.length hP (history lists ns inc max) o ns (total lists) m ?_ ?_ (by omega) (history_count hm) hT
    hm0 hm1 ?_ ?_
  · obtain ⟨o', e1, e2, e3, e4⟩ := this
    refine ⟨o', e1, e2, e3, ?_⟩
    rw [hl Files.Step.text? (fun _ => rfl)] at e4
    exact e4
  · intro r hr
    rw [← history_eq hm hr]
    obtain ⟨a1, a2⟩ := headerOf_ok (sz := total lists) h1 hinc
    exact CCopy.foldl_noerr _ _ a1 a2
  · rw [hl Files.Step.ns? (fun _ => rfl)]; rfl
  · rw [hl Files.Step.inc? (fun _ => rfl)]; exact hmi
  · rw [hl Files.Step.text? (fun _ => rfl)]; exact title_chr

/-- The text of the output, as a reader finds it. -/
theorem title_read : CharEnc.readText (shown title) = shown title := by decide +kernel

/-! ## The theorems -/

/-- All blocks of all processes, in any order. -/
theorem blocks_all (ops : FloatOps F) (cv : Conv F (BitVec 64)) (hcv : ∀ v, cv.toT v = v) (cvd : Conv F K) (zero : F)
    (idx : List Nat → List Nat) (hidx : IsSortIndex idx) (sched : List (Put F) → List (Put F)) (hs : ∀ l, (sched l).Perm l)
    (printDsr : Bool) {rule : Rule} (hr : OutOk printDsr rule)
    (ns N max : Nat) (hmax : 1 ≤ max) (d : Disk) (hN : taddr ns N < 2 ^ 63) (hd : taddr ns N ≤ d.size)
    (lists : List (List Nat × List K)) (hlen : ∀ l ∈ lists, l.1.length = l.2.length) (hlt : ∀ l ∈ lists, ∀ k ∈ l.1, k < N)
    (hgood : printDsr = true → Good ops zero ∧ ∀ l ∈ lists, ∀ v ∈ l.2, Good ops (cvd.toF v))
    (hT : taddr ns (total lists) < 2 ^ 63) (out : Disk) :
    ∃ ps o, collect (procPuts ops cv cvd zero idx printDsr false rule ns max d lists) (List.range lists.length) = .ok ps ∧
      putAll ops ns (sched ps.flatten) out = .ok o ∧ (∀ x, x < 3600 → o.byte x = out.byte x) ∧
      ∀ j k v, (lists.flatMap fun l => l.1.zip l.2)[j]? = some (k, v) → Copied ops printDsr ns d k o j (cvd.toF v) := by
  have hproc : ∀ r, ∃ qs, ∀ h : r < lists.length, procPuts ops cv cvd zero idx printDsr false rule ns max d lists r = .ok qs ∧
      List.Forall₂ (PutOk ops cvd printDsr rule ns d lists[r].1 lists[r].2 (first lists r))
        (pieces lists[r].1.length max lists[r].1.length 0) qs := by
    intro r
    by_cases h : r < lists.length
    · obtain ⟨qs, h1, h2⟩ := proc_spec ops cv hcv cvd zero idx hidx printDsr hr ns N max hmax d hN hd lists hlen hlt hgood hT r h
      exact ⟨qs, fun _ => ⟨h1, h2⟩⟩
    · exact ⟨[], fun h' => absurd h' h⟩
  choose g hg using hproc
  have hcol : collect (procPuts ops cv cvd zero idx printDsr false rule ns max d lists) (List.range lists.length) =
      .ok ((List.range lists.length).map g) := collect_ok fun r hr => (hg r (List.mem_range.1 hr)).1
  have hpos : ((((List.range lists.length).map g).flatten).flatMap fun q => List.range' q.pos q.n) = List.range (total lists) := by
    rw [← first_last, ← ranges_flat lists lists.length (Nat.le_refl _), ← List.flatMap_def, List.flatMap_assoc]
    refine List.flatMap_congr fun r hr => ?_
    have hr := List.mem_range.1 hr
    have hget : lists.getD r ([], []) = lists[r] := by
      rw [List.getD_eq_getElem?_getD, List.getElem?_eq_getElem hr]; rfl
    rw [puts_ranges (hg r hr).2, (pieces_spec _ max hmax _ 0 (by omega)).2.1, List.map_add_range', hget, Nat.sub_zero,
      Nat.add_zero]
  have hall : ∀ q ∈ ((List.range lists.length).map g).flatten, ∃ r, ∃ h : r < lists.length, ∃ b ∈ pieces lists[r].1.length max lists[r].1.length 0,
      PutOk ops cvd printDsr rule ns d lists[r].1 lists[r].2 (first lists r) b q := by
    intro q hq
    rw [← List.flatMap_def] at hq
    obtain ⟨r, hr, hq⟩ := List.mem_flatMap.1 hq
    have hr := List.mem_range.1 hr
    obtain ⟨b, hb, h⟩ := ((List.forall₂_iff_get.1 (hg r hr).2) |> fun ⟨hl, hf⟩ => by
      obtain ⟨n, hn, rfl⟩ := List.mem_iff_getElem.1 hq
      exact ⟨_, List.getElem_mem (by omega), hf n (by omega) hn⟩ : ∃ b ∈ pieces lists[r].1.length max lists[r].1.length 0,
      PutOk ops cvd printDsr rule ns d lists[r].1 lists[r].2 (first lists r) b q)
    exact ⟨r, hr, b, hb, h⟩
  obtain ⟨o, o1, o2, o3⟩ := putAll_spec ops ns (total lists) hT (sched ((List.range lists.length).map g).flatten) out
    (by
      intro q hq
      obtain ⟨r, hr, b, hb, h⟩ := hall q ((hs _).mem_iff.1 hq)
      have := (pieces_spec lists[r].1.length max hmax lists[r].1.length 0 (by omega)).2.2 b hb
      have hf := first_succ hr
      have hf2 := first_le lists (r + 1)
      refine ⟨h.prm.1, h.prm.2, h.trc.1, h.trc.2, ?_⟩
      rw [h.pos, h.n]; omega)
    (by
      rw [((hs _).flatMap_right _).nodup_iff, hpos]
      exact List.nodup_range)
  refine ⟨_, o, hcol, o1, ?_, ?_⟩
  · intro x hx
    exact o3 x fun k hk hc => by unfold taddr at hc; omega
  · intro j k v hj
    obtain ⟨r, i, hrl, h1, h2, rfl⟩ := flat_get lists hlen j k v hj
    have hi : i < lists[r].1.length := (List.getElem?_eq_some_iff.1 h1).1
    have hmem : i ∈ (pieces lists[r].1.length max lists[r].1.length 0).flatMap fun b => List.range' b.1 b.2 := by
      rw [(pieces_spec _ max hmax _ 0 (by omega)).2.1, List.mem_range'_1]; omega
    obtain ⟨b, hb, hib⟩ := List.mem_flatMap.1 hmem
    rw [List.mem_range'_1] at hib
    obtain ⟨n, hn, rfl⟩ := List.mem_iff_getElem.1 hb
    obtain ⟨hl, hf⟩ := List.forall₂_iff_get.1 (hg r hrl).2
    have hq := hf n hn (by omega)
    simp only [List.get_eq_getElem] at hq
    have hin := o2 ((g r)[n]'(by omega)) ((hs _).mem_iff.2 (by
      rw [← List.flatMap_def]
      exact List.mem_flatMap.2 ⟨r, List.mem_range.2 hrl, List.getElem_mem _⟩))
    have := hq.copied hr hin (i := i - (pieces lists[r].1.length max lists[r].1.length 0)[n].1) (k := k) (v := v) (by omega)
      (by rw [Nat.add_sub_cancel' hib.1]; exact h1) (by rw [Nat.add_sub_cancel' hib.1]; exact h2)
    rw [Nat.add_sub_cancel' hib.1] at this
    exact this

/-- **C87** (one output, partial). For any number of processes, any lists of traces (in any order and with repetitions), any
order in which the blocks of the processes reach the file, with and without the criterion: the output opens with the number
of samples and the interval of the source, one trace for each listed one and the title; and its trace `j` is the `j`-th listed
trace, counted through the processes, byte for byte but for the criterion. Missing: sources with IBM samples, whose samples
are converted; intervals that are not positive, see `C87_zero_refuted`. -/
theorem C87_output_partial (ops : FloatOps F) (cv : Conv F (BitVec 64)) (hcv : ∀ v, cv.toT v = v) (cvd : Conv F K) (zero : F)
    (idx : List Nat → List Nat) (hidx : IsSortIndex idx) (sched : List (Put F) → List (Put F)) (hs : ∀ l, (sched l).Perm l)
    (printDsr : Bool) (d : Disk) (i : Info) (hopen : openRead d = .ok i) (hd : d.size < 2 ^ 63) (h0 : 0 < i.ns)
    (h1 : i.ns ≤ 32767) (hf : i.format ≠ 1#16) (hinc : 0 < i.inc) (lists : List (List Nat × List K)) (hP : lists ≠ [])
    (hlen : ∀ l ∈ lists, l.1.length = l.2.length) (hlt : ∀ l ∈ lists, ∀ k ∈ l.1, k < i.nt)
    (hgood : printDsr = true → Good ops zero ∧ ∀ l ∈ lists, ∀ v ∈ l.2, Good ops (cvd.toF v))
    (N : Nat) (hN : N = (lists.flatMap fun l => l.1).length) (hsz : 3600 + N * (240 + 4 * i.ns) < 2 ^ 63) (out : Disk) :
    ∃ o, outputNonMono ops cv cvd zero idx sched printDsr d lists out = .ok o ∧ o.size = 3600 + N * (240 + 4 * i.ns) ∧
      openRead o = .ok ⟨i.ns, N, i.inc, 5#16, shown title⟩ ∧
      ∀ j k v, (lists.flatMap fun l => l.1.zip l.2)[j]? = some (k, v) → Copied ops printDsr i.ns d k o j (cvd.toF v) := by
  obtain ⟨hds, iv, hiv⟩ := openRead_of hopen hd h0 h1
  rw [hiv] at hinc
  obtain ⟨a1, a2, a3, a4⟩ := inc_again hinc
  rw [← hiv] at a1 a2
  have hN' : N = total lists := by rw [hN, List.length_flatMap]; rfl
  subst hN'
  obtain ⟨rule, r1, r2, r3⟩ := outRule_ok printDsr
  obtain ⟨m1, m2⟩ := outMax_pos h1
  obtain ⟨ps, o1, b1, b2, -, b4⟩ := blocks_all ops cv hcv cvd zero idx hidx sched hs printDsr r2 i.ns i.nt (outMax i.ns 240) m1 d
    (Nat.lt_of_le_of_lt hds hd) hds lists hlen hlt hgood hsz out
  obtain ⟨o, c1, c2, c3, c4⟩ := close_out (max := outMax i.ns 240) (lists := lists) m1 (List.length_pos_iff.2 hP) h0 h1 hsz a1
    (m := iv.toInt) (by omega) (by omega) a2 o1
  refine ⟨o, ?_, c2, ?_, fun j k v hj => (b4 j k v hj).congr fun x hx => c3 x (by unfold taddr at hx; omega)⟩
  · have hw : collect (writerOn i.ns i.inc (outMax i.ns 240) lists) (List.range lists.length) = .ok ((List.range lists.length).map
        fun r => (putCalls lists (outMax i.ns 240) r).foldl (fun w c => w.writeTrace c.1 c.2) (headerOf i.ns i.inc (total lists))) :=
      collect_ok fun r hr => writerOn_eq m1 m2 (List.mem_range.1 hr) (nt_lt hsz)
    unfold outputNonMono
    rw [hopen, Res.ok_bind, r1, Res.ok_bind, r3, Res.ok_bind]
    simp only [decide_eq_false hf]
    rw [hw, Res.ok_bind, b1, Res.ok_bind, b2, Res.ok_bind, c1]
  · rw [BitVec.ofInt_toInt, ← hiv, title_read] at c4
    exact c4

/-- **C87** refuted for a source whose interval is 0: the traces are written, but the output never gets a file header: its
first 3600 bytes stay what they were before. -/
theorem C87_zero_refuted (ops : FloatOps F) (cv : Conv F (BitVec 64)) (hcv : ∀ v, cv.toT v = v) (cvd : Conv F K) (zero : F)
    (idx : List Nat → List Nat) (hidx : IsSortIndex idx) (sched : List (Put F) → List (Put F)) (hs : ∀ l, (sched l).Perm l)
    (printDsr : Bool) (d : Disk) (i : Info) (hopen : openRead d = .ok i) (hd : d.size < 2 ^ 63) (h0 : 0 < i.ns)
    (h1 : i.ns ≤ 32767) (hf : i.format ≠ 1#16) (hinc : i.inc = 0) (lists : List (List Nat × List K)) (hP : lists ≠ [])
    (hlen : ∀ l ∈ lists, l.1.length = l.2.length) (hlt : ∀ l ∈ lists, ∀ k ∈ l.1, k < i.nt)
    (hgood : printDsr = true → Good ops zero ∧ ∀ l ∈ lists, ∀ v ∈ l.2, Good ops (cvd.toF v))
    (N : Nat) (hN : N = (lists.flatMap fun l => l.1).length) (hsz : 3600 + N * (240 + 4 * i.ns) < 2 ^ 63) (out : Disk) :
    ∃ o, outputNonMono ops cv cvd zero idx sched printDsr d lists out = .ok o ∧ (∀ x, x < 3600 → o.byte x = out.byte x) ∧
      ∀ j k v, (lists.flatMap fun l => l.1.zip l.2)[j]? = some (k, v) → Copied ops printDsr i.ns d k o j (cvd.toF v) := by
  obtain ⟨hds, -⟩ := openRead_of hopen hd h0 h1
  have hN' : N = total lists := by rw [hN, List.length_flatMap]; rfl
  subst hN'
  obtain ⟨rule, r1, r2, r3⟩ := outRule_ok printDsr
  obtain ⟨m1, m2⟩ := outMax_pos h1
  obtain ⟨ps, o1, b1, b2, b3, b4⟩ := blocks_all ops cv hcv cvd zero idx hidx sched hs printDsr r2 i.ns i.nt (outMax i.ns 240) m1 d
    (Nat.lt_of_le_of_lt hds hd) hds lists hlen hlt hgood hsz out
  refine ⟨o1, ?_, b3, b4⟩
  have hw : collect (writerOn i.ns i.inc (outMax i.ns 240) lists) (List.range lists.length) = .ok ((List.range lists.length).map
      fun r => (putCalls lists (outMax i.ns 240) r).foldl (fun w c => w.writeTrace c.1 c.2) (headerOf i.ns i.inc (total lists))) :=
    collect_ok fun r hr => writerOn_eq m1 m2 (List.mem_range.1 hr) (nt_lt hsz)
  unfold outputNonMono
  rw [hopen, Res.ok_bind, r1, Res.ok_bind, r3, Res.ok_bind]
  simp only [decide_eq_false hf]
  rw [hw, Res.ok_bind, b1, Res.ok_bind, b2, Res.ok_bind]
  unfold close
  rw [agree_const (a := true)]
  · rfl
  · intro hnil
    exact hP (by simpa using hnil)
  · intro x hx
    obtain ⟨w, hw, rfl⟩ := List.mem_map.1 hx
    obtain ⟨r, -, rfl⟩ := List.mem_map.1 hw
    have hh : (headerOf i.ns i.inc (total lists)).err = true := by
      unfold headerOf
      have : (((W.new.writeText title).writeNt (total lists)).writeInc i.inc).err = true := by
        unfold W.writeInc; rw [if_pos (by rw [hinc, abs_zero]; exact zpow_pos (by norm_num) _)]
      generalize ((W.new.writeText title).writeNt (total lists)).writeInc i.inc = w at *
      unfold W.writeNs
      split
      · rfl
      · split <;> exact this
    have hk : ∀ (l : List (Nat × Nat)) (w : W), w.err = true → (l.foldl (fun w c => w.writeTrace c.1 c.2) w).err = true := by
      intro l
      induction l with
      | nil => exact fun _ h => h
      | cons a l ih => exact fun w h => ih _ (by show (w.err || !w.nsSet) = true; rw [h]; rfl)
    exact hk _ _ hh

theorem zip_flat (ms : List (List (Nat × Nat × K))) (f : Nat × Nat × K → Nat) :
    ((ms.map fun m => (m.map f, m.map fun q => q.2.2)).flatMap fun l => l.1.zip l.2) =
      ms.flatten.map fun q => (f q, q.2.2) := by
  rw [List.flatMap_map, List.map_flatten, ← List.flatMap_def]
  refine List.flatMap_congr fun m _ => ?_
  dsimp only
  rw [List.zip_map']

theorem len_flat (ms : List (List (Nat × Nat × K))) (f : Nat × Nat × K → Nat) :
    ((ms.map fun m => (m.map f, m.map fun q => q.2.2)).flatMap fun l => l.1).length = ms.flatten.length := by
  rw [List.flatMap_map, List.length_flatMap, List.length_flatten]
  congr 1
  exact List.map_congr_left fun m _ => List.length_map _

/-- A source file of the program. -/
structure Source (d : Disk) (i : Info) : Prop where
  opens : openRead d = .ok i
  size : d.size < 2 ^ 63
  ns0 : 0 < i.ns
  ns1 : i.ns ≤ 32767
  format : i.format ≠ 1#16
  inc : 0 < i.inc

/-- **C87** (both outputs, partial). For any pairs found on any number of processes: both outputs open with as many traces as
there are pairs, each with the number of samples and the interval of its source, and trace `j` of the two outputs is the
first and the second trace of pair `j`, byte for byte but for the criterion of the pair. -/
theorem C87_pairs_partial (ops : FloatOps F) (cv : Conv F (BitVec 64)) (hcv : ∀ v, cv.toT v = v) (cvd : Conv F K) (zero : F)
    (idx : List Nat → List Nat) (hidx : IsSortIndex idx) (sched : List (Put F) → List (Put F)) (hs : ∀ l, (sched l).Perm l)
    (printDsr : Bool) (d1 d2 : Disk) (i1 i2 : Info) (hs1 : Source d1 i1) (hs2 : Source d2 i2) (ms : List (List (Nat × Nat × K)))
    (hP : ms ≠ []) (hlt : ∀ m ∈ ms, ∀ a b v, (a, b, v) ∈ m → a < i1.nt ∧ b < i2.nt)
    (hgood : printDsr = true → Good ops zero ∧ ∀ m ∈ ms, ∀ a b v, (a, b, v) ∈ m → Good ops (cvd.toF v))
    (N : Nat) (hN : N = ms.flatten.length) (hz1 : 3600 + N * (240 + 4 * i1.ns) < 2 ^ 63)
    (hz2 : 3600 + N * (240 + 4 * i2.ns) < 2 ^ 63) (out1 out2 : Disk) :
    ∃ o1 o2, writeBoth ops cv cvd zero idx sched printDsr d1 d2 ms out1 out2 = .ok (o1, o2) ∧
      openRead o1 = .ok ⟨i1.ns, N, i1.inc, 5#16, shown title⟩ ∧ openRead o2 = .ok ⟨i2.ns, N, i2.inc, 5#16, shown title⟩ ∧
      ∀ j a b v, ms.flatten[j]? = some (a, b, v) →
        Copied ops printDsr i1.ns d1 a o1 j (cvd.toF v) ∧ Copied ops printDsr i2.ns d2 b o2 j (cvd.toF v) := by
  have hl : ∀ f : Nat × Nat × K → Nat, ∀ l ∈ ms.map fun m => (m.map f, m.map fun q => q.2.2), l.1.length = l.2.length := by
    intro f l hl
    obtain ⟨m, -, rfl⟩ := List.mem_map.1 hl
    simp
  have hg : ∀ f : Nat × Nat × K → Nat, printDsr = true → Good ops zero ∧
      ∀ l ∈ ms.map fun m => (m.map f, m.map fun q => q.2.2), ∀ v ∈ l.2, Good ops (cvd.toF v) := by
    intro f hp
    refine ⟨(hgood hp).1, fun l hl v hv => ?_⟩
    obtain ⟨m, hm, rfl⟩ := List.mem_map.1 hl
    obtain ⟨⟨a, b, w⟩, hq, rfl⟩ := List.mem_map.1 hv
    exact (hgood hp).2 m hm a b w hq
  obtain ⟨o1, e1, -, e3, e4⟩ := C87_output_partial ops cv hcv cvd zero idx hidx sched hs printDsr d1 i1 hs1.opens hs1.size hs1.ns0
    hs1.ns1 hs1.format hs1.inc (ms.map fun m => (m.map fun q => q.1, m.map fun q => q.2.2)) (by simpa using hP) (hl _)
    (by
      intro l hl k hk
      obtain ⟨m, hm, rfl⟩ := List.mem_map.1 hl
      obtain ⟨⟨a, b, w⟩, hq, rfl⟩ := List.mem_map.1 hk
      exact (hlt m hm a b w hq).1) (hg _) N (by rw [len_flat, hN]) hz1 out1
  obtain ⟨o2, g1, -, g3, g4⟩ := C87_output_partial ops cv hcv cvd zero idx hidx sched hs printDsr d2 i2 hs2.opens hs2.size hs2.ns0
    hs2.ns1 hs2.format hs2.inc (ms.map fun m => (m.map fun q => q.2.1, m.map fun q => q.2.2)) (by simpa using hP) (hl _)
    (by
      intro l hl k hk
      obtain ⟨m, hm, rfl⟩ := List.mem_map.1 hl
      obtain ⟨⟨a, b, w⟩, hq, rfl⟩ := List.mem_map.1 hk
      exact (hlt m hm a b w hq).2) (hg _) N (by rw [len_flat, hN]) hz2 out2
  refine ⟨o1, o2, ?_, e3, g3, fun j a b v hj => ⟨e4 j a v ?_, g4 j b v ?_⟩⟩
  · unfold writeBoth
    rw [e1, Res.ok_bind, g1, Res.ok_bind]
  · rw [zip_flat ms fun q => q.1, List.getElem?_map, hj]; rfl
  · rw [zip_flat ms fun q => q.2.1, List.getElem?_map, hj]; rfl

/-- **C87** (the search and the outputs, partial). If the search returns on every process, the outputs have the same number of
traces; trace `j` of the first is a trace `t` of the first file, trace `j` of the second a trace `u` of the second file whose
criterion with `t` is within the limit, and it is stored in both; every trace for which the search found a partner within the
limit is there with it. Missing: as for one output; the reading of the coordinates, C88; the search itself, see C48. -/
theorem C87_fourdbin_partial {T : Type} [LinearOrder K] (g : Geo K T) (ops : FloatOps F) (cv : Conv F (BitVec 64))
    (hcv : ∀ v, cv.toT v = v) (cvd : Conv F K) (zero : F)
    (idx : List Nat → List Nat) (hidx : IsSortIndex idx) (sched : List (Put F) → List (Put F)) (hs : ∀ l, (sched l).Perm l)
    (printDsr : Bool) (d1 d2 : Disk) (i1 i2 : Info) (hs1 : Source d1 i1) (hs2 : Source d2 i2) (c1s c2s : List (List T))
    (hP : c1s ≠ []) (hb1 : ∀ c ∈ c1s, Below g c) (hb2 : ∀ c ∈ c2s, Below g c)
    (ht1 : ∀ c ∈ c1s, ∀ t ∈ c, g.tn t < i1.nt) (ht2 : ∀ c ∈ c2s, ∀ t ∈ c, g.tn t < i2.nt)
    (st : Nat → List (Nat × K)) (hst : ∀ r, r < c1s.length → calc4DBin g r (c1s.getD r []) c2s = .ok (st r))
    (hgood : printDsr = true → Good ops zero ∧ ∀ t u, g.crit t u ≤ g.dmax → Good ops (cvd.toF (g.crit t u)))
    (hz1 : ∀ N, N ≤ c1s.flatten.length → 3600 + N * (240 + 4 * i1.ns) < 2 ^ 63)
    (hz2 : ∀ N, N ≤ c1s.flatten.length → 3600 + N * (240 + 4 * i2.ns) < 2 ^ 63) (out1 out2 : Disk) :
    ∃ o1 o2 N, fourdbin g ops cv cvd zero idx sched printDsr d1 d2 c1s c2s out1 out2 = .ok (o1, o2) ∧
      openRead o1 = .ok ⟨i1.ns, N, i1.inc, 5#16, shown title⟩ ∧ openRead o2 = .ok ⟨i2.ns, N, i2.inc, 5#16, shown title⟩ ∧
      (∀ j, j < N → ∃ t ∈ c1s.flatten, ∃ u ∈ c2s.flatten, g.crit t u ≤ g.dmax ∧
        Copied ops printDsr i1.ns d1 (g.tn t) o1 j (cvd.toF (g.crit t u)) ∧
        Copied ops printDsr i2.ns d2 (g.tn u) o2 j (cvd.toF (g.crit t u))) ∧
      ∀ r (c1 : List T) (i : Nat) t b v, c1s[r]? = some c1 → c1[i]? = some t → (st r)[i]? = some (b, v) → v ≤ g.dmax →
        ∃ j, j < N ∧ Copied ops printDsr i1.ns d1 (g.tn t) o1 j (cvd.toF v) ∧ Copied ops printDsr i2.ns d2 b o2 j (cvd.toF v) := by
  have hgetD : ∀ r c1, c1s[r]? = some c1 → c1s.getD r [] = c1 := by
    intro r c1 h; rw [List.getD_eq_getElem?_getD, h]; rfl
  have hcol : collect (fun r => do
      let c1 := c1s.getD r []
      let st ← calc4DBin g r c1 c2s
      Res.ok (matched g c1 st)) (List.range c1s.length) =
      .ok ((List.range c1s.length).map fun r => matched g (c1s.getD r []) (st r)) :=
    collect_ok fun r hr => by
      dsimp only
      rw [hst r (List.mem_range.1 hr), Res.ok_bind]
  have hpair : ∀ m ∈ (List.range c1s.length).map (fun r => matched g (c1s.getD r []) (st r)), ∀ a b v, (a, b, v) ∈ m →
      ∃ t ∈ c1s.flatten, ∃ u ∈ c2s.flatten, a = g.tn t ∧ b = g.tn u ∧ v = g.crit t u ∧ g.crit t u ≤ g.dmax := by
    intro m hm a b v hq
    obtain ⟨r, hr, rfl⟩ := List.mem_map.1 hm
    have hr := List.mem_range.1 hr
    have hget := hgetD r _ (List.getElem?_eq_getElem hr)
    have hmem : c1s.getD r [] ∈ c1s := by rw [hget]; exact List.getElem_mem hr
    obtain ⟨t, ht, u, hu, h⟩ := C48_matched_partial g r _ c2s _ (hb1 _ hmem) hb2 (hst r hr) a b v hq
    exact ⟨t, List.mem_flatten.2 ⟨_, hmem, ht⟩, u, hu, h⟩
  have htn1 : ∀ t ∈ c1s.flatten, g.tn t < i1.nt := by
    intro t ht; obtain ⟨c, hc, h⟩ := List.mem_flatten.1 ht; exact ht1 c hc t h
  have htn2 : ∀ t ∈ c2s.flatten, g.tn t < i2.nt := by
    intro t ht; obtain ⟨c, hc, h⟩ := List.mem_flatten.1 ht; exact ht2 c hc t h
  have hcount : ((List.range c1s.length).map fun r => matched g (c1s.getD r []) (st r)).flatten.length ≤ c1s.flatten.length := by
    rw [List.length_flatten, List.length_flatten, List.map_map]
    have : c1s.map List.length = (List.range c1s.length).map fun r => (c1s.getD r []).length := by
      apply List.ext_getElem
      · simp
      · intro n h1 h2
        have h1 : n < c1s.length := by simpa using h1
        rw [List.getElem_map, List.getElem_map, List.getElem_range, hgetD n _ (List.getElem?_eq_getElem h1)]
    rw [this]
    refine List.sum_le_sum fun r _ => ?_
    unfold matched
    refine Nat.le_trans (List.length_filterMap_le _ _) ?_
    rw [List.length_zip]
    exact Nat.min_le_left _ _
  obtain ⟨o1, o2, e1, e2, e3, e4⟩ := C87_pairs_partial ops cv hcv cvd zero idx hidx sched hs printDsr d1 d2 i1 i2 hs1 hs2
    ((List.range c1s.length).map fun r => matched g (c1s.getD r []) (st r))
    (by
      intro h
      exact hP (by simpa using h))
    (by
      intro m hm a b v hq
      obtain ⟨t, ht, u, hu, rfl, rfl, -⟩ := hpair m hm a b v hq
      exact ⟨htn1 t ht, htn2 u hu⟩)
    (fun hp => ⟨(hgood hp).1, fun m hm a b v hq => by
      obtain ⟨t, -, u, -, -, -, rfl, h⟩ := hpair m hm a b v hq
      exact (hgood hp).2 t u h⟩) _ rfl (hz1 _ hcount) (hz2 _ hcount) out1 out2
  refine ⟨o1, o2, _, ?_, e2, e3, ?_, ?_⟩
  · unfold fourdbin
    rw [hcol, Res.ok_bind, e1]
  · intro j hj
    have hget := List.getElem?_eq_getElem hj
    generalize ((List.range c1s.length).map fun r => matched g (c1s.getD r []) (st r)).flatten[j] = q at hget
    obtain ⟨a, b, v⟩ := q
    obtain ⟨m, hm, hq⟩ := List.mem_flatten.1 (List.mem_of_getElem? hget)
    obtain ⟨t, ht, u, hu, rfl, rfl, rfl, h⟩ := hpair m hm a b v hq
    exact ⟨t, ht, u, hu, h, e4 j _ _ _ hget⟩
  · intro r c1 i t b v hr hi hv hle
    have hrl := (List.getElem?_eq_some_iff.1 hr).1
    have hm : (g.tn t, b, v) ∈ matched g (c1s.getD r []) (st r) := by
      unfold matched
      rw [hgetD r c1 hr, List.mem_filterMap]
      exact ⟨(t, (b, v)), List.mem_of_getElem? (List.getElem?_zip_eq_some.2 ⟨hi, hv⟩), if_pos hle⟩
    have hm' : (g.tn t, b, v) ∈ ((List.range c1s.length).map fun r => matched g (c1s.getD r []) (st r)).flatten :=
      List.mem_flatten.2 ⟨_, List.mem_map.2 ⟨r, List.mem_range.2 hrl, rfl⟩, hm⟩
    obtain ⟨j, hj, he⟩ := List.mem_iff_getElem.1 hm'
    exact ⟨j, hj, e4 j _ _ _ (by rw [List.getElem?_eq_getElem hj, he])⟩

/-- Doubles of moderate size can be written. -/
theorem good_dbl {v : ℚ} (h : |v| ≤ 2 ^ 31 - 1) : Good dbl v := by
  have h' : |v| ≤ 2 ^ 46 := by refine h.trans ?_; norm_num
  exact ⟨find_total v h', fun s => encode_total v h' s⟩

/-- **C87** (the criterion). With the scalars and roundings of the library, what a reader finds in the header for a criterion
`v` is within half a unit of the scalar of it (and the rounding of doubles). -/
theorem C87_criterion (ns : Nat) (d : Disk) (k : Nat) (o : Disk) (k' : Nat) (v : ℚ) (h : Copied dbl true ns d k o k' v)
    (hv : |v| ≤ 2 ^ 31 - 1) :
    ∃ s n, fromBE16 (recByte o ns k' 214) (recByte o ns k' 215) = s ∧
      fromBE32 (recByte o ns k' 224) (recByte o ns k' 225) (recByte o ns k' 226) (recByte o ns k' 227) = n ∧ Accepted s ∧
      |unit s * n.toInt - v| ≤ unit s / 2 + (|v| + unit s) / 2 ^ 50 := by
  obtain ⟨s, n, h1, h2, h3, h4⟩ := h.crit rfl
  obtain ⟨s', n', g1, g2, g3, g4⟩ := C14_fits v hv
  have e1 : s = s' := by
    have : Res.ok s = Res.ok s' := h1.symm.trans g1
    rwa [Res.ok.injEq] at this
  subst e1
  have e2 : n = n' := by
    have : Res.ok n = Res.ok n' := h2.symm.trans g3
    rwa [Res.ok.injEq] at this
  subst e2
  exact ⟨s, n, h3, h4, g2, g4⟩

/-! ### Examples -/

def exConvD : Conv ℤ ℤ :=
  ⟨id, fun n => BitVec.ofInt 64 n, fun n => BitVec.ofInt 16 n, fun n => BitVec.ofInt 64 n, id, BitVec.toInt, BitVec.toInt,
    BitVec.toInt, 0⟩

theorem exGood (v : ℤ) : Good exOps v := ⟨⟨_, rfl⟩, fun _ => ⟨_, rfl⟩⟩

/-- Three processes, the second without traces, and the blocks written in reverse order. -/
example : ∃ o, outputNonMono exOps exConvT exConvD 0 insIndex List.reverse true (exFile false 2 7#8)
      [([1, 0, 1], [5, 6, 7]), ([], []), ([1], [3])] ⟨0, fun _ => 0#8⟩ = .ok o ∧
    openRead o = .ok ⟨1, 4, exInc false, 5#16, shown title⟩ ∧
    Copied exOps true 1 (exFile false 2 7#8) 0 o 1 (6 : ℤ) ∧ Copied exOps true 1 (exFile false 2 7#8) 1 o 3 (3 : ℤ) := by
  obtain ⟨t, o⟩ := exFile_open false (n := 2) 7#8 (by decide)
  obtain ⟨q, h1, -, h3, h4⟩ := C87_output_partial exOps exConvT (fun _ => rfl) exConvD 0 insIndex insIndex_sorts List.reverse
    (fun l => List.reverse_perm l) true (exFile false 2 7#8) _ o (by decide) Nat.one_pos (show 1 ≤ 32767 by decide) (show 5#16 ≠ 1#16 by decide) exInc_pos
    [([1, 0, 1], [5, 6, 7]), ([], []), ([1], [3])] (by simp) (by simp) (by simp) (fun _ => ⟨exGood 0, fun _ _ v _ => exGood v⟩)
    4 rfl (show 3600 + 4 * (240 + 4 * 1) < 2 ^ 63 by decide) ⟨0, fun _ => 0#8⟩
  exact ⟨q, h1, h3, h4 1 0 6 rfl, h4 3 1 3 rfl⟩

/-- A source without an interval. -/
example : ∃ o, outputNonMono exOps exConvT exConvD 0 insIndex id false (exFile true 2 7#8) [([1], [5]), ([0], [6])]
      ⟨0, fun _ => 0#8⟩ = .ok o ∧ (∀ x, x < 3600 → o.byte x = 0#8) ∧
    Copied exOps false 1 (exFile true 2 7#8) 1 o 0 (5 : ℤ) := by
  obtain ⟨t, o⟩ := exFile_open true (n := 2) 7#8 (by decide)
  obtain ⟨q, h1, h2, h3⟩ := C87_zero_refuted exOps exConvT (fun _ => rfl) exConvD 0 insIndex insIndex_sorts id
    (fun l => List.Perm.refl l) false (exFile true 2 7#8) _ o (by decide) Nat.one_pos (show 1 ≤ 32767 by decide) (show 5#16 ≠ 1#16 by decide) exInc_zero
    [([1], [5]), ([0], [6])] (by simp) (by simp) (by simp) (by simp) 2 rfl (show 3600 + 2 * (240 + 4 * 1) < 2 ^ 63 by decide) ⟨0, fun _ => 0#8⟩
  exact ⟨q, h1, h2, h3 0 1 5 rfl⟩

theorem exSource (v : Byte) (n : Nat) (hn : plainSz n 1 < 2 ^ 63) :
    ∃ t, Source (exFile false n v) ⟨1, n, exInc false, 5#16, t⟩ := by
  obtain ⟨t, o⟩ := exFile_open false (n := n) v hn
  exact ⟨t, o, hn, Nat.one_pos, show 1 ≤ 32767 by decide, show 5#16 ≠ 1#16 by decide, exInc_pos⟩

/-- Pairs on two processes. -/
example : ∃ o1 o2, writeBoth exOps exConvT exConvD 0 insIndex id true (exFile false 2 7#8) (exFile false 3 8#8)
      [[(1, 2, 5), (0, 0, 4)], [(1, 1, 9)]] ⟨0, fun _ => 0#8⟩ ⟨0, fun _ => 0#8⟩ = .ok (o1, o2) ∧
    Copied exOps true 1 (exFile false 2 7#8) 1 o1 2 (9 : ℤ) ∧ Copied exOps true 1 (exFile false 3 8#8) 1 o2 2 (9 : ℤ) := by
  obtain ⟨t1, s1⟩ := exSource 7#8 2 (by decide)
  obtain ⟨t2, s2⟩ := exSource 8#8 3 (by decide)
  obtain ⟨o1, o2, h, -, -, h'⟩ := C87_pairs_partial exOps exConvT (fun _ => rfl) exConvD 0 insIndex insIndex_sorts id
    (fun l => List.Perm.refl l) true _ _ _ _ s1 s2 [[(1, 2, 5), (0, 0, 4)], [(1, 1, 9)]] (by simp)
    (by
      intro m hm a b v hq
      simp only [List.mem_cons, List.not_mem_nil, or_false] at hm
      rcases hm with rfl | rfl
      · simp at hq; show a < 2 ∧ b < 3; omega
      · simp at hq; show a < 2 ∧ b < 3; omega)
    (fun _ => ⟨exGood 0, fun _ _ _ _ v _ => exGood v⟩) 3 rfl (show 3600 + 3 * (240 + 4 * 1) < 2 ^ 63 by decide)
    (show 3600 + 3 * (240 + 4 * 1) < 2 ^ 63 by decide) ⟨0, fun _ => 0#8⟩ ⟨0, fun _ => 0#8⟩
  exact ⟨o1, o2, h, h' 2 1 1 9 rfl⟩

/-- The whole program on one process: two of the three traces find their partner. -/
example : ∃ o1 o2 N, fourdbin lineGeo exOps exConvT exConvD 0 insIndex id true (exFile false 3 7#8) (exFile false 3 8#8)
      [[spot 0 0, spot 1 1, spot 2 2]] [[spot 0 0, spot 1 1, spot 2 2]] ⟨0, fun _ => 0#8⟩ ⟨0, fun _ => 0#8⟩ = .ok (o1, o2) ∧
    ∃ j, j < N ∧ Copied exOps true 1 (exFile false 3 7#8) 1 o1 j (0 : ℤ) ∧
      Copied exOps true 1 (exFile false 3 8#8) 1 o2 j (0 : ℤ) := by
  obtain ⟨t1, s1⟩ := exSource 7#8 3 (by decide)
  obtain ⟨t2, s2⟩ := exSource 8#8 3 (by decide)
  have hb : ∀ c ∈ [[spot 0 0, spot 1 1, spot 2 2]], Below lineGeo c := by
    intro c hc t ht
    fin_cases hc
    fin_cases ht <;> decide
  obtain ⟨o1, o2, N, h, -, -, -, h'⟩ := C87_fourdbin_partial lineGeo exOps exConvT (fun _ => rfl) exConvD 0 insIndex
    insIndex_sorts id (fun l => List.Perm.refl l) true _ _ _ _ s1 s2 [[spot 0 0, spot 1 1, spot 2 2]]
    [[spot 0 0, spot 1 1, spot 2 2]] (by simp) hb hb (by simp [lineGeo, geoPt, spot]) (by simp [lineGeo, geoPt, spot])
    (fun _ => [(0, 0), (1, 0), (0, 4)])
    (by
      intro r hr
      have : r = 0 := by simpa using hr
      subst this
      exact C48_missed_refuted.1)
    (fun _ => ⟨exGood 0, fun _ _ _ => exGood _⟩)
    (by intro N hN; simp at hN; dsimp only; omega) (by intro N hN; simp at hN; dsimp only; omega)
    ⟨0, fun _ => 0#8⟩ ⟨0, fun _ => 0#8⟩
  exact ⟨o1, o2, N, h, h' 0 _ 1 (spot 1 1) 1 0 rfl rfl rfl (by decide)⟩

/-- Conversions for the scalars and roundings of the library. -/
def exConvQ : Conv ℚ (BitVec 64) :=
  ⟨fun b => b.toInt, id, BitVec.setWidth 16, id, fun q => BitVec.ofInt 64 ⌊q⌋, id, BitVec.signExtend 64, id, 0⟩
def exConvR : Conv ℚ ℚ :=
  ⟨id, fun q => BitVec.ofInt 64 ⌊q⌋, fun q => BitVec.ofInt 16 ⌊q⌋, fun q => BitVec.ofInt 64 ⌊q⌋, id, fun b => b.toInt,
    fun b => b.toInt, fun b => b.toInt, 0⟩

/-- A criterion that is stored. -/
example : ∃ o, outputNonMono dbl exConvQ exConvR 0 insIndex id true (exFile false 2 7#8) [([1], [12345 / 10])]
      ⟨0, fun _ => 0#8⟩ = .ok o ∧
    ∃ s n, fromBE16 (recByte o 1 0 214) (recByte o 1 0 215) = s ∧
      fromBE32 (recByte o 1 0 224) (recByte o 1 0 225) (recByte o 1 0 226) (recByte o 1 0 227) = n ∧ Accepted s ∧
      |unit s * n.toInt - 12345 / 10| ≤ unit s / 2 + (|12345 / 10| + unit s) / 2 ^ 50 := by
  have hv : |(12345 / 10 : ℚ)| ≤ 2 ^ 31 - 1 := by rw [abs_of_pos] <;> norm_num
  obtain ⟨t, o⟩ := exFile_open false (n := 2) 7#8 (by decide)
  obtain ⟨q, h1, -, -, h4⟩ := C87_output_partial dbl exConvQ (fun _ => rfl) exConvR 0 insIndex insIndex_sorts id
    (fun l => List.Perm.refl l) true (exFile false 2 7#8) _ o (by decide) Nat.one_pos (show 1 ≤ 32767 by decide)
    (show 5#16 ≠ 1#16 by decide) exInc_pos [([1], [12345 / 10])] (by simp) (by simp) (by simp)
    (fun _ => ⟨good_dbl (by norm_num), fun l hl v hv' => good_dbl (by
      rw [List.mem_singleton.1 hl] at hv'
      rw [List.mem_singleton.1 hv']
      exact hv)⟩)
    1 rfl (show 3600 + 1 * (240 + 4 * 1) < 2 ^ 63 by decide) ⟨0, fun _ => 0#8⟩
  exact ⟨q, h1, C87_criterion 1 _ 1 q 0 _ (h4 0 1 _ rfl) hv⟩

end Verif.FourDOut
