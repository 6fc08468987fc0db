import Verif.Props.File
/-!
# C23: reading traces in any order
-/
namespace Verif.Files
open Verif.Rules Verif.Params Verif.Endian Verif.Layout

/-! ## The list without repetitions -/

theorem places_length : ∀ (v : List Nat) (n : Nat), (places n v).length = v.length
  | [], _ => rfl
  | [_], _ => rfl
  | a :: b :: l, n => by
    simp only [places, List.length_cons]
    rw [places_length (b :: l)]
    simp

theorem nodups_head : ∀ (b : Nat) (l : List Nat), (nodups (b :: l))[0]? = some b
  | _, [] => rfl
  | b, c :: l => by
    unfold nodups
    split
    · rename_i h; subst h; exact nodups_head b l
    · rfl

theorem places_spec : ∀ (v : List Nat) (n j : Nat), j < v.length →
    ∃ x, (places n v)[j]? = some x ∧ n ≤ x ∧ (nodups v)[x - n]? = v[j]?
  | [], _, j, h => by simp at h
  | [a], n, j, h => by
    have : j = 0 := by simpa using h
    subst this
    exact ⟨n, rfl, Nat.le_refl _, by simp [nodups]⟩
  | a :: b :: l, n, j, h => by
    cases j with
    | zero =>
      refine ⟨n, rfl, Nat.le_refl _, ?_⟩
      rw [Nat.sub_self, nodups_head]; rfl
    | succ j =>
      have hj : j < (b :: l).length := by simpa using h
      unfold places nodups
      by_cases hab : a = b
      · rw [if_pos hab, if_pos hab]
        obtain ⟨x, h1, h2, h3⟩ := places_spec (b :: l) n j hj
        exact ⟨x, by simpa using h1, h2, by rw [h3]; simp⟩
      · rw [if_neg hab, if_neg hab]
        obtain ⟨x, h1, h2, h3⟩ := places_spec (b :: l) (n + 1) j hj
        refine ⟨x, by simpa using h1, by omega, ?_⟩
        rw [show x - n = (x - (n + 1)) + 1 by omega, List.getElem?_cons_succ, h3]
        simp

theorem nodups_sub : ∀ (v : List Nat) (x : Nat), x ∈ nodups v → x ∈ v
  | [], x, h => h
  | [a], x, h => h
  | a :: b :: l, x, h => by
    unfold nodups at h
    split at h
    · exact List.mem_cons_of_mem _ (nodups_sub (b :: l) x h)
    · rcases List.mem_cons.mp h with rfl | h
      · exact List.mem_cons_self
      · exact List.mem_cons_of_mem _ (nodups_sub (b :: l) x h)

theorem nodups_inc : ∀ (v : List Nat), v.Pairwise (· ≤ ·) → (nodups v).Pairwise (· < ·)
  | [], _ => by simp [nodups]
  | [a], _ => by simp [nodups]
  | a :: b :: l, h => by
    have h2 := List.pairwise_cons.mp h
    unfold nodups
    split
    · exact nodups_inc (b :: l) h2.2
    · rename_i hab
      refine List.pairwise_cons.mpr ⟨fun x hx => ?_, nodups_inc (b :: l) h2.2⟩
      have h3 := List.pairwise_cons.mp h2.2
      have hb := h2.1 b List.mem_cons_self
      rcases List.mem_cons.mp (nodups_sub (b :: l) x hx) with rfl | hx'
      · omega
      · have := h3.1 x hx'; omega

theorem inc_len : ∀ (l : List Nat) (lo N : Nat), l.Pairwise (· < ·) → (∀ x ∈ l, lo ≤ x ∧ x < N) → lo ≤ N →
    l.length + lo ≤ N
  | [], _, _, _, _, h => by simpa using h
  | a :: l, lo, N, hp, hb, _ => by
    have h1 := List.pairwise_cons.mp hp
    have ha := hb a List.mem_cons_self
    have := inc_len l (a + 1) N h1.2
      (fun x hx => ⟨h1.1 x hx, (hb x (List.mem_cons_of_mem _ hx)).2⟩) ha.2
    simp only [List.length_cons]
    omega

/-! ## Spreading -/

theorem spreadPrm_spec {F : Type} (ops : FloatOps F) (sprm : Param F) (skip : Nat) (hs : WF sprm)
    (l : List (Nat × Nat)) : ∀ (p : Param F), WF p → sprm.rule = p.rule → HdrLayout p.rule →
    p.rule.fullextent = true → p.rule.start = 0 → sprm.c.len ≤ 2 ^ 64 → (l.map Prod.snd).Nodup →
    (∀ x ∈ l, x.1 < sprm.sz ∧ skip + x.2 < p.sz) →
    ∃ p', spreadPrm ops sprm skip p l = .ok p' ∧ WF p' ∧ p'.rule = p.rule ∧ p'.sz = p.sz ∧
      (∀ x ∈ l, ∀ m, abs p.rule m ≠ none → ∀ (T : Type) (cv : Conv F T),
        getPrm cv (skip + x.2) m p' = getPrm cv x.1 m sprm) ∧
      (∀ row m, abs p.rule m ≠ none → row < p.sz → (∀ x ∈ l, row ≠ skip + x.2) → ∀ (T : Type) (cv : Conv F T),
        getPrm cv row m p' = getPrm cv row m p) := by
  induction l with
  | nil =>
    intro p hp _ _ _ _ _ _ _
    exact ⟨p, rfl, hp, rfl, rfl, by simp, fun _ _ _ _ _ _ _ => rfl⟩
  | cons q l ih =>
    intro p hp hr hl hf hst hc hnd hb
    obtain ⟨n, j⟩ := q
    obtain ⟨hn, hj⟩ := hb (n, j) List.mem_cons_self
    have hnd := List.nodup_cons.mp (show ((j :: l.map Prod.snd)).Nodup from hnd)
    obtain ⟨p1, e1, e2, e3, e4, e5, e6, -⟩ := C16_copy_partial ops sprm p hs hp n (skip + j) hn hj true (fun _ => hr)
      (fun _ => ⟨hl, hf, hst, hc⟩)
    obtain ⟨p', f1, f2, f3, f4, f5, f6⟩ := ih p1 e2 (hr.trans e3.symm) (by rw [e3]; exact hl) (by rw [e3]; exact hf)
      (by rw [e3]; exact hst) hc hnd.2 (fun x hx => by rw [e4]; exact hb x (List.mem_cons_of_mem _ hx))
    refine ⟨p', by unfold spreadPrm; rw [e1, Res.ok_bind]; exact f1, f2, f3.trans e3, f4.trans e4, ?_, ?_⟩
    · intro x hx m hm T cv
      rcases List.mem_cons.mp hx with rfl | hx
      · have hne : ∀ y ∈ l, skip + j ≠ skip + y.2 := by
          intro y hy he
          exact hnd.1 (List.mem_map.mpr ⟨y, hy, by omega⟩)
        have hj : skip + j < p1.sz := by rw [e4]; exact hj
        have g := f6 (skip + j) m (by rw [e3]; exact hm) hj hne T cv
        rw [g]
        cases ha : abs p.rule m with
        | none => exact absurd ha hm
        | some v => exact (e5 m v v (by rw [hr]; exact ha) ha rfl).1 T cv
      · exact f5 x hx m (by rw [e3]; exact hm) T cv
    · intro row m hm hrow hne T cv
      rw [f6 row m (by rw [e3]; exact hm) (by rw [e4]; exact hrow) (fun x hx => hne x (List.mem_cons_of_mem _ hx)) T cv]
      exact e6 m row hm hrow (hne (n, j) List.mem_cons_self) T cv

theorem spreadTrc_spec (ns : Nat) (strc : Arr Byte) (l : List (Nat × Nat)) : ∀ (t : Arr Byte),
    (l.map Prod.snd).Nodup → (∀ x ∈ l, 4 * (x.1 * ns) + 4 * ns ≤ strc.len ∧ 4 * (x.2 * ns) + 4 * ns ≤ t.len) →
    ∃ t', spreadTrc ns strc t l = .ok t' ∧ t'.len = t.len ∧
      (∀ x ∈ l, ∀ y, y < 4 * ns → t'.val (4 * (x.2 * ns) + y) = strc.val (4 * (x.1 * ns) + y)) ∧
      (∀ z, (∀ x ∈ l, ¬ (4 * (x.2 * ns) ≤ z ∧ z < 4 * (x.2 * ns) + 4 * ns)) → t'.val z = t.val z) := by
  induction l with
  | nil => intro t _ _; exact ⟨t, rfl, rfl, by simp, fun _ _ => rfl⟩
  | cons q l ih =>
    intro t hnd hb
    obtain ⟨n, j⟩ := q
    have hnd := List.nodup_cons.mp (show ((j :: l.map Prod.snd)).Nodup from hnd)
    obtain ⟨h1, h2⟩ := hb (n, j) List.mem_cons_self
    obtain ⟨t1, e1, e2, e3, e4⟩ := Arr.copy_spec (4 * ns) strc (4 * (n * ns)) t (4 * (j * ns)) h1 h2
    obtain ⟨t', f1, f2, f3, f4⟩ := ih t1 hnd.2 (fun x hx => by rw [e2]; exact hb x (List.mem_cons_of_mem _ hx))
    refine ⟨t', by unfold spreadTrc; rw [e1, Res.ok_bind]; exact f1, f2.trans e2, ?_, ?_⟩
    · intro x hx y hy
      rcases List.mem_cons.mp hx with rfl | hx
      · show t'.val (4 * (j * ns) + y) = _
        rw [f4, e4 y hy]
        intro x hx hc
        have hne : x.2 ≠ j := fun he => hnd.1 (List.mem_map.mpr ⟨x, hx, he⟩)
        rcases Nat.lt_or_gt_of_ne hne with h | h
        · have := base_mono (w := ns) h
          rw [Nat.mul_comm, Nat.mul_comm ns] at this; omega
        · have := base_mono (w := ns) h
          rw [Nat.mul_comm, Nat.mul_comm ns] at this; omega
      · exact f3 x hx y hy
    · intro z hz
      rw [f4 z fun x hx => hz x (List.mem_cons_of_mem _ hx), e3 z (hz (n, j) List.mem_cons_self)]

/-! ## C23 -/

theorem sample_shift {t t' : Arr Byte} {a b : Nat} (h : ∀ y, y < 4 → t'.val (4 * a + y) = t.val (4 * b + y)) :
    sample t' a = sample t b := by
  unfold sample
  rw [h 3 (by omega), h 2 (by omega), h 1 (by omega)]
  have := h 0 (by omega)
  rw [Nat.add_zero, Nat.add_zero] at this
  rw [this]

/-- **C23** (part): for any non-empty list of trace numbers below `N`, in any
order and with repetitions, and any result of sorting it, the call returns in
position `i` what a read of the single trace `list[i]` returns: the same samples,
and for every header item and the trace number the same value (read as any type).
Rows outside the range are untouched.
Missing from the full statement: the empty list (`C23_empty_refuted`), a call
without parameters (`C23_null_refuted`), IBM files (C24). -/
theorem C23_nonmonotonic_partial {F : Type} (ops : FloatOps F) (cv : Conv F (BitVec 64)) (hcv : ∀ v, cv.toT v = v)
    (zero : F) (ns N : Nat) (offs idx : List Nat) (trc : Option (Arr Byte)) (p : Param F) (skip : Nat) (d : Disk)
    (hne : offs ≠ []) (hidx : idx.Perm (List.range offs.length))
    (hsort : (idx.map fun j => offs[j]?.getD 0).Pairwise (· ≤ ·)) (hN : 3600 + N * (240 + 4 * ns) < 2 ^ 63)
    (hlt : ∀ k ∈ offs, k < N) (hd : 3600 + N * (240 + 4 * ns) ≤ d.size)
    (ht : ∀ t, trc = some t → 4 * (ns * offs.length) ≤ t.len) (hp : RdOk p) (hpsz : offs.length + skip ≤ p.sz) :
    ∃ t' p', readNonMonotonic ops cv zero false ns offs idx trc (some p) skip d = .ok (t', some p') ∧
      (trc = none → t' = none) ∧
      (∀ t, trc = some t → ∃ t1, t' = some t1 ∧ t1.len = t.len ∧
        ∀ x, 4 * (ns * offs.length) ≤ x → t1.val x = t.val x) ∧
      (∀ row m, abs p.rule m ≠ none → row < p.sz → ¬ (skip ≤ row ∧ row < offs.length + skip) →
        ∀ (T : Type) (cv : Conv F T), getPrm cv row m p' = getPrm cv row m p) ∧
      ∀ i k (ts0 : Arr Byte) (q : Param F), offs[i]? = some k → 4 * ns ≤ ts0.len → ts0.len ≤ 2 ^ 63 → RdOk q →
        q.rule = p.rule → 1 ≤ q.sz →
        ∃ ts qs, readTraceT ops cv false ns (.start k) 1 (some ts0) (some q) 0 d = .ok (some ts, some qs) ∧
          (∀ t1, t' = some t1 → ∀ s, s < ns → loadF t1 (i * ns + s) = loadF ts s) ∧
          ∀ m v, abs p.rule m = some v → (v.1 = .short ∨ v.1 = .long ∨ v.1 = .float ∨ m = ltn) →
            ∀ (T : Type) (cv : Conv F T), getPrm cv (skip + i) m p' = getPrm cv 0 m qs := by
  have hN63 := nt_lt (ns := ns) hN
  have hlen : idx.length = offs.length := by rw [hidx.length_eq, List.length_range]
  have hvl : (sortedOffs offs idx).length = offs.length := by unfold sortedOffs; rw [List.length_map, hlen]
  have hvlt : ∀ x ∈ sortedOffs offs idx, x < N := by
    intro x hx
    obtain ⟨j, hj, rfl⟩ := List.mem_map.mp hx
    have hj' : j < offs.length := List.mem_range.mp (hidx.mem_iff.mp hj)
    rw [List.getElem?_eq_getElem hj']
    exact hlt _ (List.getElem_mem hj')
  have huInc := nodups_inc _ hsort
  have hulen := inc_len (nodups (sortedOffs offs idx)) 0 N huInc (fun x hx => ⟨Nat.zero_le _, hvlt x (nodups_sub _ x hx)⟩) (Nat.zero_le _)
  rw [Nat.add_zero] at hulen
  -- the read of the distinct traces
  have hget : ∀ i, i < (nodups (sortedOffs offs idx)).length →
      (Where.list (nodups (sortedOffs offs idx))).trace i < N := by
    intro i hi
    show (nodups (sortedOffs offs idx))[i]?.getD 0 < N
    rw [List.getElem?_eq_getElem hi]
    exact hvlt _ (nodups_sub _ _ (List.getElem_mem hi))
  have hsm : Small ns (.list (nodups (sortedOffs offs idx))) (nodups (sortedOffs offs idx)).length N :=
    ⟨hN, hget, by simp, fun l hl => by cases hl; rfl, hulen⟩
  have hnd : Ndec (.list (nodups (sortedOffs offs idx))) (nodups (sortedOffs offs idx)).length := by
    intro i j hij hj
    show (nodups (sortedOffs offs idx))[i]?.getD 0 ≤ (nodups (sortedOffs offs idx))[j]?.getD 0
    rw [List.getElem?_eq_getElem hj, List.getElem?_eq_getElem (Nat.lt_trans hij hj)]
    exact Nat.le_of_lt ((List.pairwise_iff_getElem.mp huInc) i j _ hj hij)
  have hdsz : ∀ k, k < N → taddr ns k + (240 + 4 * ns) ≤ d.size := fun k hk => by
    have := taddr_le (ns := ns) hk
    unfold taddr at this ⊢; omega
  have hmkOk : RdOk (mk zero p.rule (nodups (sortedOffs offs idx)).length) :=
    ⟨mk_wf zero hp.wf.inv _, hp.layout, hp.full, hp.start, hp.ltn⟩
  have hbytes := hsm.bytes
  have hu4 : 4 * (ns * (nodups (sortedOffs offs idx)).length) ≤ 2 ^ 63 := by
    rw [← Nat.mul_assoc]
    have := Nat.mul_le_mul_right (nodups (sortedOffs offs idx)).length (show 4 * ns ≤ 240 + 4 * ns by omega)
    omega
  obtain ⟨st, sp, e1, e2, -, e4, e5⟩ := read_spec ops cv hcv ns (.list (nodups (sortedOffs offs idx)))
    (nodups (sortedOffs offs idx)).length
    (trc.map fun _ => .fill (4 * (ns * (nodups (sortedOffs offs idx)).length)) 0#8)
    (some (mk zero p.rule (nodups (sortedOffs offs idx)).length)) 0 d N hsm hnd (fun i hi => hdsz _ (hget i hi))
    (fun t1 h1 => by
      cases trc with
      | none => simp at h1
      | some t0 => simp at h1; subst h1; exact ⟨Nat.le_refl _, hu4⟩)
    (fun p1 h1 => by cases h1; exact ⟨hmkOk, Nat.le_refl _⟩) (by simp)
  obtain ⟨sprm, rfl, g⟩ := e5 _ rfl
  -- places
  have hpl : ∀ i, i < offs.length → ∃ n, (n, i) ∈ (places 0 (sortedOffs offs idx)).zip idx ∧
      n < (nodups (sortedOffs offs idx)).length ∧ (nodups (sortedOffs offs idx))[n]? = offs[i]? := by
    intro i hi
    have hmem : i ∈ idx := hidx.mem_iff.mpr (List.mem_range.mpr hi)
    obtain ⟨j, hj, he⟩ := List.mem_iff_getElem.mp hmem
    obtain ⟨n, h1, -, h3⟩ := places_spec (sortedOffs offs idx) 0 j (by rw [hvl]; omega)
    have hv : (sortedOffs offs idx)[j]? = offs[i]? := by
      unfold sortedOffs
      rw [List.getElem?_map, List.getElem?_eq_getElem hj, he]
      simp [hi]
    rw [Nat.sub_zero, hv] at h3
    refine ⟨n, List.mem_iff_getElem?.mpr ⟨j, ?_⟩, ?_, h3⟩
    · rw [List.getElem?_zip_eq_some]
      exact ⟨h1, by rw [List.getElem?_eq_getElem hj, he]⟩
    · rw [List.getElem?_eq_getElem hi] at h3
      exact (List.getElem?_eq_some_iff.mp h3).1
  have hplb : ∀ x ∈ (places 0 (sortedOffs offs idx)).zip idx,
      x.1 < (nodups (sortedOffs offs idx)).length ∧ x.2 < offs.length := by
    intro x hx
    obtain ⟨j, hj⟩ := List.mem_iff_getElem?.mp hx
    rw [List.getElem?_zip_eq_some] at hj
    have hj2 : j < idx.length := (List.getElem?_eq_some_iff.mp hj.2).1
    obtain ⟨n, h1, -, h3⟩ := places_spec (sortedOffs offs idx) 0 j (by rw [hvl]; omega)
    rw [h1] at hj
    have hn : n = x.1 := by simpa using hj.1
    subst hn
    refine ⟨?_, ?_⟩
    · rw [Nat.sub_zero, List.getElem?_eq_getElem (show j < (sortedOffs offs idx).length by rw [hvl]; omega)] at h3
      exact (List.getElem?_eq_some_iff.mp h3).1
    · have : x.2 ∈ idx := List.mem_iff_getElem?.mpr ⟨j, hj.2⟩
      exact List.mem_range.mp (hidx.mem_iff.mp this)
  have hsnd : (((places 0 (sortedOffs offs idx)).zip idx).map Prod.snd) = idx := by
    rw [List.map_snd_zip]
    rw [places_length, hvl, hlen]
    exact Nat.le_refl _
  have hnodup : (((places 0 (sortedOffs offs idx)).zip idx).map Prod.snd).Nodup := by
    rw [hsnd]; exact hidx.nodup_iff.mpr List.nodup_range
  have hclen : sprm.c.len ≤ 2 ^ 64 := by
    have := g.wf.c
    rw [g.size] at this
    have h2 : 240 * (nodups (sortedOffs offs idx)).length ≤ (240 + 4 * ns) * (nodups (sortedOffs offs idx)).length :=
      Nat.mul_le_mul_right _ (by omega)
    have h3 : (mk zero p.rule (nodups (sortedOffs offs idx)).length).sz = (nodups (sortedOffs offs idx)).length := rfl
    rw [h3] at this
    split at this <;> omega
  obtain ⟨p', f1, f2, f3, f4, f5, f6⟩ := spreadPrm_spec ops sprm skip g.wf _ p hp.wf g.rule hp.layout hp.full hp.start
    hclen hnodup (fun x hx => by
      have := hplb x hx
      rw [g.size]
      exact ⟨this.1, by omega⟩)
  have hrows : ∀ row m, abs p.rule m ≠ none → row < p.sz → ¬ (skip ≤ row ∧ row < offs.length + skip) →
      ∀ (T : Type) (cv : Conv F T), getPrm cv row m p' = getPrm cv row m p := by
    intro row m hm hrow hn T cv
    refine f6 row m hm hrow (fun x hx he => hn ?_) T cv
    have := hplb x hx
    omega
  -- one trace
  have hone : ∀ k (ts0 : Arr Byte) (q : Param F), k < N → 4 * ns ≤ ts0.len → ts0.len ≤ 2 ^ 63 → RdOk q → 1 ≤ q.sz →
      ∃ ts qs, readTraceT ops cv false ns (.start k) 1 (some ts0) (some q) 0 d = .ok (some ts, some qs) ∧
        SamplesRead d ns (.start k) 1 ts0 ts ∧ RowsRead ops d ns (.start k) 1 0 q qs := by
    intro k ts0 q hk hl hl' hq hq1
    have htr : ∀ i, i < 1 → (Where.start k).trace i = k := by
      intro i hi
      show add64 k i = k
      rw [add64_eq (by omega)]; omega
    obtain ⟨a, b, c1, -, -, c4, c5⟩ := read_spec ops cv hcv ns (.start k) 1 (some ts0) (some q) 0 d N
      ⟨hN, fun i hi => by rw [htr i hi]; exact hk, fun o ho _ => by cases ho; omega, by simp, by omega⟩
      (fun i j hij hj => by omega) (fun i hi => by rw [htr i hi]; exact hdsz k hk)
      (fun t h => by cases h; exact ⟨by omega, hl'⟩) (fun q2 h => by cases h; exact ⟨hq, hq1⟩) (by simp)
    obtain ⟨ts, rfl, s1⟩ := c4 ts0 rfl
    obtain ⟨qs, rfl, s2⟩ := c5 q rfl
    exact ⟨ts, qs, c1, s1, s2⟩
  have hread : readList ops cv false ns (nodups (sortedOffs offs idx))
      (trc.map fun _ => .fill (4 * (ns * (nodups (sortedOffs offs idx)).length)) 0#8)
      (some (mk zero p.rule (nodups (sortedOffs offs idx)).length)) 0 d = .ok (st, some sprm) := e1
  have hprm : ∀ i k (ts0 : Arr Byte) (q qs : Param F), offs[i]? = some k → RdOk q → q.rule = p.rule → 1 ≤ q.sz →
      RowsRead ops d ns (.start k) 1 0 q qs →
      ∀ m v, abs p.rule m = some v → (v.1 = .short ∨ v.1 = .long ∨ v.1 = .float ∨ m = ltn) →
            ∀ (T : Type) (cv : Conv F T), getPrm cv (skip + i) m p' = getPrm cv 0 m qs := by
    intro i k ts0 q qs hk hq hqr hq1 s2 m v hm hv T cv
    have hi : i < offs.length := (List.getElem?_eq_some_iff.mp hk).1
    obtain ⟨n, h1, h2, h3⟩ := hpl i hi
    have htn : (Where.list (nodups (sortedOffs offs idx))).trace n = k := by
      show (nodups (sortedOffs offs idx))[n]?.getD 0 = k
      rw [h3, hk]; rfl
    have hkN : k < N := hlt k (List.mem_iff_getElem?.mpr ⟨i, hk⟩)
    have hts : (Where.start k).trace 0 = k := by show add64 k 0 = k; rw [add64_eq (by omega)]; omega
    rw [f5 (n, i) h1 m (by rw [hm]; simp) T cv]
    obtain ⟨e, he, hev⟩ := entry_of_abs hm
    have hkd : e.kind = v.1 := by rw [← hev]; rfl
    have hmkr : (mk zero p.rule (nodups (sortedOffs offs idx)).length).rule = p.rule := rfl
    rw [getPrm_item cv sprm g.wf (by rw [g.rule]; exact he) (by rw [g.size]; exact h2),
      getPrm_item cv qs s2.wf (by rw [s2.rule, hqr]; exact he) (by rw [s2.size]; omega)]
    congr 2
    have d1 := g.dec n h2 m e he
    have d2 := s2.dec 0 (by omega) m e (by rw [hqr]; exact he)
    rw [htn] at d1
    rw [hts] at d2
    simp only [Nat.add_zero] at d1 d2
    rcases hv with h0 | h0 | h0 | h0
    · have hk0 := hkd.trans h0
      simp only [item, hk0]
      rw [Nat.mul_comm, d1.1 hk0, Nat.mul_comm _ 0, d2.1 hk0]
    · have hk0 := hkd.trans h0
      simp only [item, hk0]
      rw [Nat.mul_comm, d1.2.1 hk0, Nat.mul_comm _ 0, d2.2.1 hk0]
    · have hk0 := hkd.trans h0
      simp only [item, hk0]
      rw [Nat.mul_comm, d1.2.2 hk0, Nat.mul_comm _ 0, d2.2.2 hk0]
    · subst h0
      obtain ⟨e', he', hk0⟩ := hp.ltn
      have : e = e' := by
        have h1 := find_of_mem hp.wf.inv.keys he
        rw [find_of_mem hp.wf.inv.keys he'] at h1
        cases h1; rfl
      subst this
      have n1 := g.number n e h2 he
      have n2 := s2.number 0 e (by omega) (by rw [hqr]; exact he)
      rw [htn] at n1
      rw [hts] at n2
      simp only [item, hk0, g.rule, s2.rule]
      rw [hmkr] at n1 ⊢
      rw [Nat.add_zero] at n1 n2
      rw [n1, n2]
  cases trc with
  | none =>
    have hst : st = none := e2 rfl
    subst hst
    refine ⟨none, p', ?_, fun _ => rfl, fun t hc => by simp at hc, hrows, ?_⟩
    · unfold readNonMonotonic
      simp only [if_neg hne]
      rw [hread, Res.ok_bind]
      simp only [Option.getD_some]
      rw [f1, Res.ok_bind]
    · intro i k ts0 q hk hl hl' hq hqr hq1
      obtain ⟨ts, qs, c1, c2, c3⟩ := hone k ts0 q (hlt k (List.mem_iff_getElem?.mpr ⟨i, hk⟩)) hl hl' hq hq1
      exact ⟨ts, qs, c1, fun t1 hc => by simp at hc, hprm i k ts0 q qs hk hq hqr hq1 c3⟩
  | some t =>
    obtain ⟨strc, rfl, gs⟩ := e4 _ rfl
    have hsl : strc.len = 4 * (ns * (nodups (sortedOffs offs idx)).length) := gs.len
    have htl := ht t rfl
    obtain ⟨t1, k1, k2, k3, k4⟩ := spreadTrc_spec ns strc _ t hnodup (fun x hx => by
      obtain ⟨a, b⟩ := hplb x hx
      have a' := base_mono (w := ns) a
      have b' := base_mono (w := ns) b
      rw [Nat.mul_comm x.1, Nat.mul_comm x.2, hsl]
      omega)
    refine ⟨some t1, p', ?_, fun hc => by simp at hc, ?_, hrows, ?_⟩
    · unfold readNonMonotonic
      simp only [if_neg hne]
      rw [hread, Res.ok_bind]
      simp only [Option.getD_some]
      rw [f1, Res.ok_bind, k1, Res.ok_bind]
    · intro t0 ht0
      cases ht0
      refine ⟨t1, rfl, k2, fun x hx => k4 x fun y hy hc => ?_⟩
      have := (hplb y hy).2
      have := base_mono (w := ns) this
      rw [Nat.mul_comm y.2] at hc
      omega
    · intro i k ts0 q hk hl hl' hq hqr hq1
      have hkN : k < N := hlt k (List.mem_iff_getElem?.mpr ⟨i, hk⟩)
      obtain ⟨ts, qs, c1, c2, c3⟩ := hone k ts0 q hkN hl hl' hq hq1
      refine ⟨ts, qs, c1, ?_, hprm i k ts0 q qs hk hq hqr hq1 c3⟩
      intro t2 ht2 s hs
      cases ht2
      have hi : i < offs.length := (List.getElem?_eq_some_iff.mp hk).1
      obtain ⟨n, h1, h2, h3⟩ := hpl i hi
      have htn : (Where.list (nodups (sortedOffs offs idx))).trace n = k := by
        show (nodups (sortedOffs offs idx))[n]?.getD 0 = k
        rw [h3, hk]; rfl
      have hts : (Where.start k).trace 0 = k := by show add64 k 0 = k; rw [add64_eq (by omega)]; omega
      have hrow := row_lt (ns := ns) hi hs
      rw [loadF_ok (by rw [k2, Nat.mul_comm i]; omega), loadF_ok (by rw [c2.len]; omega)]
      have g1 := gs.samples n s h2 hs
      have g2 := c2.samples 0 s (by omega) hs
      rw [htn] at g1
      rw [hts, Nat.zero_mul, Nat.zero_add] at g2
      rw [g2, ← g1]
      have hss : sample t1 (i * ns + s) = sample strc (n * ns + s) := ?_
      · rw [hss]
      refine sample_shift fun y hy => ?_
      have := k3 (n, i) h1 (4 * s + y) (by omega)
      simp only at this
      rw [show 4 * (i * ns + s) + y = 4 * (i * ns) + (4 * s + y) by omega, this,
        show 4 * (n * ns) + (4 * s + y) = 4 * (n * ns + s) + y by omega]

/-- Five numbers with repetitions and a result of sorting them. -/
example : [4, 1, 3, 0, 2].Perm (List.range [7, 2, 9, 2, 1].length) ∧
    ([4, 1, 3, 0, 2].map fun j => [7, 2, 9, 2, 1][j]?.getD 0).Pairwise (· ≤ ·) := by decide

/-- **C23** refuted for the empty list: `idx[0]` of an empty vector. -/
theorem C23_empty_refuted {F : Type} (ops : FloatOps F) (cv : Conv F (BitVec 64)) (zero : F) (ibm : Bool) (ns : Nat)
    (trc : Option (Arr Byte)) (p : Param F) (skip : Nat) (d : Disk) :
    readNonMonotonic ops cv zero ibm ns [] [] trc (some p) skip d = .ub := rfl

/-- **C23** refuted for a call without parameters: the null pointer is
dereferenced. -/
theorem C23_null_refuted {F : Type} (ops : FloatOps F) (cv : Conv F (BitVec 64)) (zero : F) (ibm : Bool) (ns : Nat)
    (offs idx : List Nat) (trc : Option (Arr Byte)) (skip : Nat) (d : Disk) :
    readNonMonotonic ops cv zero ibm ns offs idx trc none skip d = .ub := rfl

end Verif.Files
