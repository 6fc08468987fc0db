import Verif.Util.CreateTool
import Verif.Props.CopyTool

/-!
# C82: creating a file
-/

namespace Verif.CCreate
open Verif.Rules Verif.Params Verif.Files Verif.Layout Verif.Endian Verif.FP Verif.Flow Verif.Extremes Verif.Scalar
open Verif.CCopy (store_spec dr_rule dr_entries dr_numbers dr_coords)

/-! ## Rows -/

/-- The number stored for an item of type `long`. -/
def lval (p : Param ℚ) (j : Nat) (e : Entry) : BitVec 64 := p.i.val (j * p.rule.cnt .long + e.num)

/-- A value stored as a `double`. -/
def vF : Value → ℚ
  | .inl x => x
  | .inr v => rnd v.toInt

/-- A value stored as a `long`. -/
def vI : Value → BitVec 64
  | .inl x => BitVec.ofInt 64 (trunc x)
  | .inr v => v

theorem set_stored {T : Type} (cv : Conv ℚ T) (p : Param ℚ) (hp : WF p) (i m : Nat) (v : T) {e : Entry}
    (he : (m, some e) ∈ p.rule.map) (hk : e.kind = .float ∨ e.kind = .long) (hi : i < p.sz) :
    ∃ p', setPrm cv i m v p = .ok p' ∧ WF p' ∧ p'.rule = p.rule ∧ p'.sz = p.sz ∧
      (e.kind = .float → fval p' i e = cv.toF v) ∧ (e.kind = .long → lval p' i e = cv.toI v) ∧
      ∀ i' m' e', (m', some e') ∈ p.rule.map → ¬ (i' = i ∧ m' = m) →
        (e'.kind = .float → fval p' i' e' = fval p i' e') ∧ (e'.kind = .long → lval p' i' e' = lval p i' e') := by
  have hlt := num_lt hp.inv he
  have hne : ∀ i' m' e' k, (m', some e') ∈ p.rule.map → e'.kind = k → e.kind = k → ¬ (i' = i ∧ m' = m) →
      i' * p.rule.cnt k + e'.num ≠ p.rule.cnt k * i + e.num := by
    intro i' m' e' k h1 h2 h3 h4
    have := idx_ne hp.inv h1 he h2 h3 h4
    rwa [Nat.mul_comm (p.rule.cnt k) i'] at this
  unfold setPrm getEntry
  rw [find_of_mem hp.inv.keys he]
  simp only
  rcases hk with hk | hk
  · rw [hk] at hlt
    simp only [hk]
    rw [Arr.set_ok (by rw [hp.f]; exact idx_lt hlt hi)]
    have hs : SameFrame p { p with f := ⟨p.f.len, fun x => if x = p.rule.cnt .float * i + e.num then cv.toF v else p.f.val x⟩ } :=
      ⟨rfl, rfl, rfl, rfl, rfl, rfl, rfl⟩
    refine ⟨_, rfl, hs.wf hp, rfl, rfl, fun _ => ?_, fun h => (by cases h), fun i' m' e' h1 h2 => ⟨fun h3 => ?_, fun _ => rfl⟩⟩
    · show (if i * p.rule.cnt .float + e.num = p.rule.cnt .float * i + e.num then cv.toF v else _) = _
      rw [if_pos (by rw [Nat.mul_comm])]
    · show (if i' * p.rule.cnt .float + e'.num = p.rule.cnt .float * i + e.num then cv.toF v else _) = _
      rw [if_neg (hne i' m' e' _ h1 h3 hk h2)]
      rfl
  · rw [hk] at hlt
    simp only [hk]
    rw [Arr.set_ok (by rw [hp.i]; exact idx_lt hlt hi)]
    have hs : SameFrame p { p with i := ⟨p.i.len, fun x => if x = p.rule.cnt .long * i + e.num then cv.toI v else p.i.val x⟩ } :=
      ⟨rfl, rfl, rfl, rfl, rfl, rfl, rfl⟩
    refine ⟨_, rfl, hs.wf hp, rfl, rfl, fun h => (by cases h), fun _ => ?_, fun i' m' e' h1 h2 => ⟨fun _ => rfl, fun h3 => ?_⟩⟩
    · show (if i * p.rule.cnt .long + e.num = p.rule.cnt .long * i + e.num then cv.toI v else _) = _
      rw [if_pos (by rw [Nat.mul_comm])]
    · show (if i' * p.rule.cnt .long + e'.num = p.rule.cnt .long * i + e.num then cv.toI v else _) = _
      rw [if_neg (hne i' m' e' _ h1 h3 hk h2)]
      rfl

/-- Row `j` has the value `v` for item `m`. -/
def Is (p : Param ℚ) (j m : Nat) (v : Value) : Prop :=
  ∀ e, (m, some e) ∈ dr.map → (e.kind = .float → fval p j e = vF v) ∧ (e.kind = .long → lval p j e = vI v)

/-- Items of row `j` are the same. -/
def Same (p p' : Param ℚ) (j m : Nat) : Prop :=
  ∀ e, (m, some e) ∈ dr.map → (e.kind = .float → fval p' j e = fval p j e) ∧ (e.kind = .long → lval p' j e = lval p j e)

theorem Is.same {p p' : Param ℚ} {j m : Nat} {v : Value} (h : Is p j m v) (hs : Same p p' j m) : Is p' j m v :=
  fun e he => ⟨fun hk => by rw [(hs e he).1 hk, (h e he).1 hk], fun hk => by rw [(hs e he).2 hk, (h e he).2 hk]⟩

theorem Same.trans {p p' p'' : Param ℚ} {j m : Nat} (h : Same p p' j m) (h' : Same p' p'' j m) : Same p p'' j m :=
  fun e he => ⟨fun hk => by rw [(h' e he).1 hk, (h e he).1 hk], fun hk => by rw [(h' e he).2 hk, (h e he).2 hk]⟩

/-- The items that can be set. -/
def keys : List Nat := [5, 14, 20, 21, 22, 23, 24, 25, 26, 27]

theorem keys_entry : ∀ m ∈ keys, ∃ q ∈ dr.map, ∃ e, q.2 = some e ∧ (e.kind = .float ∨ e.kind = .long) ∧ q.1 = m := by
  unfold dr; decide +kernel

theorem entry_unique {m : Nat} {e e' : Entry} (h : (m, some e) ∈ dr.map) (h' : (m, some e') ∈ dr.map) : e = e' := by
  have h1 := find_of_mem dr_reach.inv.keys h
  have h2 := find_of_mem dr_reach.inv.keys h'
  rw [h1] at h2
  simpa using h2

theorem set_value (i m : Nat) (v : Value) (l : List (Nat × Value)) (p : Param ℚ) (hp : WF p) (hr : p.rule = dr)
    (hi : i < p.sz) (hm : m ∈ keys) :
    ∃ p', setItems i ((m, v) :: l) p = setItems i l p' ∧ WF p' ∧ p'.rule = dr ∧ p'.sz = p.sz ∧ Is p' i m v ∧
      ∀ i' m', ¬ (i' = i ∧ m' = m) → Same p p' i' m' := by
  obtain ⟨q, hq', e, hq2, hk, hq1⟩ := keys_entry m hm
  have hq : (m, some e) ∈ dr.map := by rw [← hq1, ← hq2]; exact hq'
  have he : (m, some e) ∈ p.rule.map := by rw [hr]; exact hq
  cases v with
  | inl x =>
    obtain ⟨p', h1, h2, h3, h4, h5, h6, h7⟩ := set_stored dconv p hp i m x he hk hi
    refine ⟨p', by rw [setItems, h1, Res.ok_bind], h2, by rw [h3, hr], h4, fun e' he' => ?_, fun i' m' hne e' he' => ?_⟩
    · rw [entry_unique he' hq]
      exact ⟨h5, h6⟩
    · exact h7 i' m' e' (by rw [hr]; exact he') hne
  | inr x =>
    obtain ⟨p', h1, h2, h3, h4, h5, h6, h7⟩ := set_stored iconv p hp i m x he hk hi
    refine ⟨p', by rw [setItems, h1, Res.ok_bind], h2, by rw [h3, hr], h4, fun e' he' => ?_, fun i' m' hne e' he' => ?_⟩
    · rw [entry_unique he' hq]
      exact ⟨h5, h6⟩
    · exact h7 i' m' e' (by rw [hr]; exact he') hne

theorem setItems_spec (i : Nat) (l : List (Nat × Value)) : ∀ p : Param ℚ, WF p → p.rule = dr → i < p.sz →
    (∀ q ∈ l, q.1 ∈ keys) → (l.map (·.1)).Nodup →
    ∃ p', setItems i l p = .ok p' ∧ WF p' ∧ p'.rule = dr ∧ p'.sz = p.sz ∧ (∀ q ∈ l, Is p' i q.1 q.2) ∧
      ∀ i' m', ¬ (i' = i ∧ m' ∈ l.map (·.1)) → Same p p' i' m' := by
  induction l with
  | nil =>
    intro p hp hr _ _ _
    exact ⟨p, rfl, hp, hr, rfl, by simp, fun _ _ _ _ _ => ⟨fun _ => rfl, fun _ => rfl⟩⟩
  | cons a l ih =>
    intro p hp hr hi hk hn
    obtain ⟨m, v⟩ := a
    rw [List.map_cons, List.nodup_cons] at hn
    obtain ⟨p1, a1, a2, a3, a4, a5, a6⟩ := set_value i m v l p hp hr hi (hk (m, v) (by simp))
    obtain ⟨p2, b1, b2, b3, b4, b5, b6⟩ := ih p1 a2 a3 (by omega) (fun q hq => hk q (by simp [hq])) hn.2
    refine ⟨p2, by rw [a1, b1], b2, b3, by omega, ?_, ?_⟩
    · intro q hq
      rcases List.mem_cons.1 hq with rfl | hq
      · exact a5.same (b6 i m (by simpa using hn.1))
      · exact b5 q hq
    · intro i' m' hne
      rw [List.map_cons, List.mem_cons] at hne
      exact (a6 i' m' (by tauto)).trans (b6 i' m' (by tauto))

/-- What `fillRows` needs of a function that gives the values for a row: always the same items, all known. -/
structure RowOk (row : Nat → List (Nat × Value)) (ks : List Nat) : Prop where
  map : ∀ g, (row g).map (·.1) = ks
  nodup : ks.Nodup
  known : ∀ m ∈ ks, m ∈ keys

theorem fillRows_spec {row : Nat → List (Nat × Value)} {ks : List Nat} (hrow : RowOk row ks) (off n : Nat) :
    ∀ (j : Nat) (p : Param ℚ), WF p → p.rule = dr → j + n ≤ p.sz → off + (j + n) < 2 ^ 64 →
    ∃ p', fillRows row off p j n = .ok p' ∧ WF p' ∧ p'.rule = dr ∧ p'.sz = p.sz ∧
      (∀ i, j ≤ i → i < j + n → ∀ q ∈ row (off + i), Is p' i q.1 q.2) ∧
      ∀ i m, ¬ ((j ≤ i ∧ i < j + n) ∧ m ∈ ks) → Same p p' i m := by
  induction n with
  | zero =>
    intro j p hp hr _ _
    exact ⟨p, rfl, hp, hr, rfl, fun i h1 h2 => by omega, fun _ _ _ _ _ => ⟨fun _ => rfl, fun _ => rfl⟩⟩
  | succ n ih =>
    intro j p hp hr hj hlt
    obtain ⟨p1, a1, a2, a3, a4, a5, a6⟩ := setItems_spec j (row (off + j)) p hp hr (by omega)
      (fun q hq => hrow.known _ (by rw [← hrow.map (off + j)]; exact List.mem_map.2 ⟨q, hq, rfl⟩))
      (by rw [hrow.map]; exact hrow.nodup)
    obtain ⟨p2, b1, b2, b3, b4, b5, b6⟩ := ih (j + 1) p1 a2 a3 (by omega) (by omega)
    rw [hrow.map] at a6
    refine ⟨p2, ?_, b2, b3, by omega, ?_, ?_⟩
    · unfold fillRows
      rw [add64_eq (by omega), a1, Res.ok_bind, b1]
    · intro i h1 h2 q hq
      by_cases hi : i = j
      · subst hi
        exact (a5 q hq).same (b6 i q.1 (by omega))
      · exact b5 i (by omega) (by omega) q hq
    · intro i m hne
      exact (a6 i m (fun hc => hne ⟨by omega, hc.2⟩)).trans (b6 i m (fun hc => hne ⟨by omega, hc.2⟩))

theorem rowC_ok : RowOk rowC [20, 21, 22, 23, 24, 25, 26, 27, 5] :=
  ⟨fun g => by simp [rowC, places], by decide, by decide⟩

theorem rowCC_ok : RowOk rowCC [20, 21, 22, 23, 24, 25, 26, 27, 5] :=
  ⟨fun g => by simp [rowCC, places], by decide, by decide⟩

/-! ## Samples -/

theorem fillSamples_spec (bits : Nat → BitVec 32) (first n : Nat) : ∀ (j : Nat) (t : Arr Byte),
    4 * (j + n) ≤ t.len → t.len ≤ 2 ^ 63 → first + (j + n) < 2 ^ 64 →
    ∃ t', fillSamples bits first t j n = .ok t' ∧ t'.len = t.len ∧
      ∀ x, sample t' x = if j ≤ x ∧ x < j + n then bits (first + x) else sample t x := by
  induction n with
  | zero =>
    intro j t _ _ _
    exact ⟨t, rfl, rfl, fun x => by rw [if_neg (by omega)]⟩
  | succ n ih =>
    intro j t h hl hlt
    obtain ⟨t1, e1, e2, e3, e4⟩ := store_spec (t := t) (k := j) (bits (first + j)) (by omega) hl
    obtain ⟨t2, g1, g2, g3⟩ := ih (j + 1) t1 (by rw [e2]; omega) (by rw [e2]; exact hl) (by omega)
    refine ⟨t2, by unfold fillSamples; rw [add64_eq (by omega), e1, Res.ok_bind, g1], by rw [g2, e2], fun x => ?_⟩
    rw [g3]
    by_cases hx : x = j
    · subst hx
      rw [if_neg (by omega), if_pos (by omega), e3]
    · rw [e4 x hx]
      by_cases hc : j + 1 ≤ x ∧ x < j + 1 + n
      · rw [if_pos hc, if_pos (by omega)]
      · rw [if_neg hc, if_neg (by omega)]

/-! ## Single precision -/

theorem single_small {n : Nat} (h : n ≤ 2 ^ 24) : single n = n := by
  unfold single
  rcases Nat.lt_or_ge n (2 ^ 24) with hc | hc
  · rw [if_pos hc]
  · have : n = 2 ^ 24 := by omega
    subst this
    decide +kernel

theorem single_le {n : Nat} (h : n < 2 ^ 30) : single n ≤ n + 64 := by
  unfold single
  split
  · omega
  · have hu : 2 ^ (Nat.log2 n - 23) ≤ 64 := by
      have hl : Nat.log2 n < 30 := (Nat.log2_lt (by omega)).2 h
      have : 2 ^ (Nat.log2 n - 23) ≤ 2 ^ 6 := Nat.pow_le_pow_right (by omega) (by omega)
      exact this
    generalize 2 ^ (Nat.log2 n - 23) = u at *
    have := Nat.div_mul_le_self n u
    dsimp only
    split
    · rw [Nat.add_mul]; omega
    · omega

/-! ## Headers -/

/-- The values of the coordinates, at a distance `c g` from the given numbers, are among those of a row. -/
def Coords (row : Nat → List (Nat × Value)) (c : Nat → Nat) : Prop :=
  ∀ g, ∀ q ∈ places, (q.1, Sum.inl (rnd ((q.2 + c g : Nat) : ℚ))) ∈ row g

theorem rowC_coords : Coords rowC single := fun _ _ hq => List.mem_append.2 (Or.inl (List.mem_map.2 ⟨_, hq, rfl⟩))
theorem rowCC_coords : Coords rowCC single := fun _ _ hq => List.mem_append.2 (Or.inl (List.mem_map.2 ⟨_, hq, rfl⟩))

theorem dr_floatKeys : ∀ q ∈ dr.map, ∃ e, q.2 = some e ∧ (e.kind = .float → q.1 ∈ places.map (·.1)) := by
  unfold dr; decide +kernel

theorem ofNat_toInt {n : Nat} (h : n < 2 ^ 31) : (BitVec.ofNat 32 n).toInt = n := by
  rw [BitVec.toInt_eq_toNat_of_lt (by rw [BitVec.toNat_ofNat]; omega), BitVec.toNat_ofNat]
  omega

theorem coord_value {n : Nat} (h : n < 2 ^ 31) : rnd (n : ℚ) = decode 1#16 (BitVec.ofNat 32 n) := by
  have h1 := ofNat_toInt h
  have h2 : parseScalar 1#16 = 1 := by
    unfold parseScalar
    rw [if_neg (by decide), if_pos (by decide), show (1#16).toInt = 1 by decide, Int.cast_one]
  unfold decode
  rw [h1, h2, one_mul, Int.cast_natCast]

theorem float_coord {row : Nat → List (Nat × Value)} {c : Nat → Nat} (hc : Coords row c) {p : Param ℚ} {j g : Nat}
    (h : ∀ q ∈ row g, Is p j q.1 q.2) {m : Nat} {e : Entry} (he : (m, some e) ∈ dr.map) (hk : e.kind = .float) :
    ∃ q ∈ places, q.1 = m ∧ fval p j e = rnd ((q.2 + c g : Nat) : ℚ) := by
  obtain ⟨e', h1, h2⟩ := dr_floatKeys _ he
  cases h1
  obtain ⟨q, hq, hqm⟩ := List.mem_map.1 (h2 hk)
  have := (h _ (hc g q hq) e (by show (q.1, some e) ∈ _; rw [hqm]; exact he)).1 hk
  exact ⟨q, hq, hqm, this⟩

theorem places_le : ∀ q ∈ places, q.2 ≤ 3000000 := by decide

/-- The header of trace `k` has the values of a row, and 0 for the offset. -/
def Hdr (row : Nat → List (Nat × Value)) (ns k : Nat) (o : Disk) : Prop :=
  ∃ (p : Param ℚ) (j : Nat), WF p ∧ p.rule = dr ∧ (∀ q ∈ row k, Is p j q.1 q.2) ∧ Is p j 14 (.inr 0#64) ∧
    Header (fsOf dbl) (enOf dbl) p j (dhdr o ns k)

theorem Hdr.congr {row : Nat → List (Nat × Value)} {ns k : Nat} {o o' : Disk} (h : Hdr row ns k o)
    (he : ∀ x, taddr ns k ≤ x ∧ x < taddr ns k + 240 → o'.byte x = o.byte x) : Hdr row ns k o' := by
  obtain ⟨p, j, h1, h2, h3, h4, h5⟩ := h
  refine ⟨p, j, h1, h2, h3, h4, Header.congr (by rw [h2]; exact dr_rule.layout) h5 ?_⟩
  intro x hx
  exact he _ ⟨by unfold taddr; omega, by unfold taddr; omega⟩

/-- Parameters with whole numbers for coordinates and no offsets. -/
structure Filled (p : Param ℚ) : Prop where
  wf : WF p
  rule : p.rule = dr
  whole : ∀ x, x < p.f.len → ∃ N : Nat, N < 2 ^ 31 ∧ p.f.val x = rnd (N : ℚ)
  offset : ∀ j, Is p j 14 (.inr 0#64)

theorem mk_filled (n : Nat) : Filled (Params.mk 0 dr n) := by
  refine ⟨mk_wf 0 dr_reach.inv n, rfl, fun x _ => ⟨0, by norm_num, ?_⟩, fun j e he => ⟨fun _ => ?_, fun _ => rfl⟩⟩
  · show (0 : ℚ) = rnd ((0 : Nat) : ℚ)
    simp [rnd_zero]
  · show (0 : ℚ) = rnd ((0#64).toInt : ℚ)
    simp [rnd_zero]

theorem Filled.ok {p : Param ℚ} (h : Filled p) : PrmOk dbl p := by
  have hsmall : ∀ N : Nat, N < 2 ^ 31 → |rnd (N : ℚ)| ≤ 2 ^ 46 := by
    intro N hN
    rw [coord_value hN]
    exact decode_le _ _
  refine ⟨h.wf, by rw [h.rule]; exact dr_rule.layout, by rw [h.rule]; exact dr_rule.full, by rw [h.rule]; exact dr_rule.start,
    fun x hx => ?_, fun x hx s => ?_⟩
  · obtain ⟨N, h1, h2⟩ := h.whole x hx
    rw [h2]
    exact find_total _ (hsmall N h1)
  · obtain ⟨N, h1, h2⟩ := h.whole x hx
    rw [h2]
    exact encode_total _ (hsmall N h1) s

theorem fill_spec {row : Nat → List (Nat × Value)} {ks : List Nat} {c : Nat → Nat} (hrow : RowOk row ks) (hc : Coords row c)
    (h14 : 14 ∉ ks) {off n : Nat} (hlt : off + n < 2 ^ 64) (hb : ∀ j, j < n → c (off + j) ≤ 2 ^ 30 + 64) {p0 : Param ℚ}
    (h0 : Filled p0) (hn : n ≤ p0.sz) :
    ∃ p, fillRows row off p0 0 n = .ok p ∧ Filled p ∧ p.sz = p0.sz ∧ ∀ j, j < n → ∀ q ∈ row (off + j), Is p j q.1 q.2 := by
  obtain ⟨p, e1, e2, e3, e4, e5, e6⟩ := fillRows_spec hrow off n 0 p0 h0.wf h0.rule (by omega) (by omega)
  refine ⟨p, e1, ⟨e2, e3, ?_, fun j => (h0.offset j).same (e6 j 14 fun hc => h14 hc.2)⟩, e4,
    fun j hj => e5 j (Nat.zero_le _) (by omega)⟩
  intro x hx
  rw [e2.f, e3, e4] at hx
  have hpos : 0 < dr.cnt .float := by
    rcases Nat.eq_zero_or_pos (dr.cnt .float) with h | h
    · rw [h] at hx; omega
    · exact h
  obtain ⟨m, e, hm, hk, hnum⟩ := slot_of dr_rule.inv .float (Nat.mod_lt x hpos)
  by_cases hj : x / dr.cnt .float < n
  · obtain ⟨q, hq, -, hv⟩ := float_coord hc (e5 (x / dr.cnt .float) (Nat.zero_le _) (by omega)) hm hk
    unfold fval at hv
    rw [e3, hnum, Nat.div_add_mod'] at hv
    refine ⟨_, ?_, hv⟩
    have := places_le q hq
    have := hb _ hj
    omega
  · have hs := (e6 (x / dr.cnt .float) m (fun h => hj (by omega)) e hm).1 hk
    unfold fval at hs
    rw [e3, h0.rule, hnum, Nat.div_add_mod'] at hs
    obtain ⟨N, h1, h2⟩ := h0.whole x (by rw [h0.wf.f, h0.rule]; exact hx)
    exact ⟨N, h1, hs.trans h2⟩

/-- The parameters a process makes. -/
theorem rows_spec {row : Nat → List (Nat × Value)} {ks : List Nat} (hrow : RowOk row ks) (hc : Coords row single) (h14 : 14 ∉ ks)
    {off n : Nat} (hlt : off + n ≤ 2 ^ 30) :
    ∃ p, fillRows row off (Params.mk 0 dr n) 0 n = .ok p ∧ PrmOk dbl p ∧ p.rule = dr ∧ p.sz = n ∧
      ∀ j, j < n → (∀ q ∈ row (off + j), Is p j q.1 q.2) ∧ Is p j 14 (.inr 0#64) := by
  obtain ⟨p, e1, e2, e3, e4⟩ := fill_spec hrow hc h14 (off := off) (n := n) (by omega) (fun j hj => by
    have := single_le (n := off + j) (by omega)
    omega) (mk_filled n) (Nat.le_refl n)
  exact ⟨p, e1, e2.ok, e2.rule, e3, fun j hj => ⟨e4 j hj, e2.offset j⟩⟩

theorem dr_longKeys : ∀ q ∈ [(5, 5), (14, 37), (26, 189), (27, 193)], ∃ q' ∈ dr.map, ∃ e, q'.2 = some e ∧
    (e.kind = .long ∧ e.loc = q.2) ∧ q'.1 = q.1 := by
  unfold dr; decide +kernel

theorem dr_placeKeys : ∀ q ∈ (place.zip places), ∃ q' ∈ dr.map, ∃ e, q'.2 = some e ∧
    (e.kind = .float ∧ e.loc = q.1 ∧ e.scalLoc = 71) ∧ q'.1 = q.2.1 := by
  unfold dr; decide +kernel

theorem coord_list : ∀ q ∈ [(73, 1600), (77, 2400), (81, 100000), (85, 3000000), (181, 10000), (185, 4000)],
    ∃ c ∈ place.zip places, c.1 = q.1 ∧ c.2.2 = q.2 := by decide +kernel

/-- What the file has for trace `k`: its number, an inline, a crossline, no offset, six coordinates at a distance `x` from the
six given numbers, the samples of `bits`, and zeros. -/
structure Made (bits : Nat → BitVec 32) (ns k il xl x : Nat) (o : Disk) : Prop where
  number : be32 o ns k 5 = BitVec.ofNat 32 k
  inline : be32 o ns k 189 = BitVec.ofNat 32 il
  crossline : be32 o ns k 193 = BitVec.ofNat 32 xl
  offset : be32 o ns k 37 = 0#32
  coords : ∀ q ∈ [(73, 1600), (77, 2400), (81, 100000), (85, 3000000), (181, 10000), (185, 4000)],
    unit (be16 o ns k 71) * (be32 o ns k q.1).toInt = ((q.2 + x : Nat) : ℚ)
  samples : ∀ s, s < ns → dsamp o ns k s = bits (k * ns + s)
  rest : ∀ x, x < 240 → (∀ loc ∈ [5, 37, 189, 193] ++ place, ¬ (loc ≤ x + 1 ∧ x + 1 < loc + 4)) → ¬ (71 ≤ x + 1 ∧ x + 1 < 73) →
    recByte o ns k x = 0#8

theorem Hdr.made {row : Nat → List (Nat × Value)} {c : Nat → Nat} (hc : Coords row c) {ns k il xl : Nat}
    {bits : Nat → BitVec 32} {o : Disk} (hsl : c k ≤ 2 ^ 30 + 64) (h : Hdr row ns k o) (hs : ∀ s, s < ns → dsamp o ns k s = bits (k * ns + s))
    (htn : ∃ v, (5, v) ∈ row k ∧ (vI v).setWidth 32 = BitVec.ofNat 32 k)
    (hil : ∃ v, (26, v) ∈ row k ∧ (vI v).setWidth 32 = BitVec.ofNat 32 il)
    (hxl : ∃ v, (27, v) ∈ row k ∧ (vI v).setWidth 32 = BitVec.ofNat 32 xl) :
    Made bits ns k il xl (c k) o := by
  obtain ⟨p, j, hp, hr, hrow, h14, hh⟩ := h
  have hlong : ∀ q ∈ [(5, 5), (14, 37), (26, 189), (27, 193)], ∀ v, Is p j q.1 v → be32 o ns k q.2 = (vI v).setWidth 32 := by
    intro q hq v hv
    obtain ⟨q', hq', e, he, ⟨hk', hl⟩, h1⟩ := dr_longKeys q hq
    have hm : (q.1, some e) ∈ dr.map := by rw [← h1, ← he]; exact hq'
    have g1 := (hv e hm).2 hk'
    have g2 := (hh.items q.1 e (by rw [hr]; exact hm)).2.1 hk'
    unfold lval at g1
    rw [g1, Nat.zero_add, hl] at g2
    exact g2
  have hcoord : ∀ q ∈ place.zip places, unit (be16 o ns k 71) * (be32 o ns k q.1).toInt = ((q.2.2 + c k : Nat) : ℚ) := by
    intro q hq
    obtain ⟨q', hq', e, he, ⟨hk', hl, hsc⟩, h1⟩ := dr_placeKeys q hq
    have hqp : q.2 ∈ places := (List.of_mem_zip hq).2
    have hm : (q.2.1, some e) ∈ dr.map := by rw [← h1, ← he]; exact hq'
    have hN : ∀ q ∈ places, q.2 + c k < 2 ^ 31 := by
      intro q hq
      have := places_le q hq
      omega
    have hv : fval p j e = decode 1#16 (BitVec.ofNat 32 (q.2.2 + c k)) := by
      rw [← coord_value (hN _ hqp)]
      exact (hrow _ (hc k q.2 hqp) e hm).1 hk'
    have := again_values (fs := fsOf dbl) (en := enOf dbl) (fun v s h => by
      show okOr 1#16 (findScalar v) = s; rw [h]; rfl)
      (fun v s n h => by show okOr 0#32 (encode v s) = n; rw [h]; rfl) hh.items (by rw [hr]; exact hm) hk'
      (s0 := 1#16) (Or.inl (Or.inl rfl)) (by
        intro x hx _
        obtain ⟨m', h1, h2⟩ := mem_floatsOf.1 hx
        rw [hr] at h1
        obtain ⟨q2, a1, -, a3⟩ := float_coord hc hrow h1 h2
        exact ⟨BitVec.ofNat 32 (q2.2 + c k), by rw [a3, coord_value (hN _ a1)]⟩) hv
    have h2 := this.2.1
    rw [Nat.zero_add, Nat.zero_add, hl, hsc, unit_one, one_mul] at h2
    refine Eq.trans h2 ?_
    rw [ofNat_toInt (hN _ hqp), Int.cast_natCast]
  obtain ⟨v1, a1, b1⟩ := htn
  obtain ⟨v2, a2, b2⟩ := hil
  obtain ⟨v3, a3, b3⟩ := hxl
  refine ⟨?_, ?_, ?_, ?_, ?_, hs, ?_⟩
  · rw [hlong (5, 5) (by simp) v1 (hrow _ a1), b1]
  · rw [hlong (26, 189) (by simp) v2 (hrow _ a2), b2]
  · rw [hlong (27, 193) (by simp) v3 (hrow _ a3), b3]
  · rw [hlong (14, 37) (by simp) _ h14]; rfl
  · intro q hq
    obtain ⟨c', hc', h1, h2⟩ := coord_list q hq
    rw [← h1, ← h2]
    exact hcoord c' hc'
  · intro x hx hl hs
    have h1 := hh.rest x hx (by
      rintro ⟨m, e, he, hcase⟩
      rw [hr] at he
      obtain ⟨e', e1, hk⟩ := dr_entries _ he
      cases e1
      rcases hk with hk | ⟨hk, hm⟩ | ⟨hk, hm, hsc⟩
      · rcases hcase with ⟨hv, -⟩ | ⟨hv, -⟩
        · rcases hv with hv | hv | hv <;> rw [hk] at hv <;> cases hv
        · rw [hk] at hv; cases hv
      · rcases hcase with ⟨-, a, b⟩ | ⟨hv, -⟩
        · rw [hk] at b
          simp only [width] at b
          exact hl _ (List.mem_append.2 (Or.inl hm)) (by omega)
        · rw [hk] at hv; cases hv
      · rcases hcase with ⟨-, a, b⟩ | ⟨-, a, b⟩
        · rw [hk] at b
          simp only [width] at b
          exact hl _ (List.mem_append.2 (Or.inr hm)) (by omega)
        · rw [hsc] at a b
          exact hs (by omega))
    rw [hr, dr_copy, if_neg (by simp)] at h1
    exact h1

/-! ## Shares -/

/-- What the samples need. -/
def Samples (bits : Nat → BitVec 32) (ns k : Nat) (o : Disk) : Prop := ∀ s, s < ns → dsamp o ns k s = bits (k * ns + s)

theorem Samples.congr {bits : Nat → BitVec 32} {ns k : Nat} {o o' : Disk} (h : Samples bits ns k o)
    (he : ∀ x, taddr ns k + 240 ≤ x ∧ x < taddr ns k + (240 + 4 * ns) → o'.byte x = o.byte x) : Samples bits ns k o' := by
  intro s hs
  rw [dsamp_congr hs he]
  exact h s hs

theorem small_of {ns nt off n : Nat} (hsz : taddr ns nt < 2 ^ 63) (hle : off + n ≤ nt) :
    Small ns (.start off) n nt ∧ Inc (.start off) n ∧ ∀ j, j < n → (Where.start off).trace j = off + j := by
  have hnt := nt_lt hsz
  have hcl : clamp nt off n = n := by rw [clamp_eq (by omega) (by omega) (by omega)]; omega
  have hsm : Small ns (.start off) n nt := by
    have := clamp_small (sz := n) hsz (show off ≤ nt by omega) (by omega)
    rwa [hcl] at this
  have htr : ∀ j, j < n → (Where.start off).trace j = off + j := fun j hj => hsm.trace_start hj
  refine ⟨hsm, ?_, htr⟩
  intro a b hab hb
  rw [htr a (by omega), htr b hb]; omega

/-- The samples a process makes. -/
theorem samples_spec (bits : Nat → BitVec 32) {ns nt off n : Nat} (hsz : taddr ns nt < 2 ^ 63) (hle : off + n ≤ nt) :
    mul64 n ns = n * ns ∧ 4 * (n * ns) ≤ 2 ^ 63 ∧
    ∃ t, fillSamples bits (mul64 off ns) ⟨4 * mul64 n ns, fun _ => 0#8⟩ 0 (mul64 n ns) = .ok t ∧ t.len = 4 * (n * ns) ∧
      ∀ j s, j < n → s < ns → sample t (j * ns + s) = bits ((off + j) * ns + s) := by
  have b1 := sample_bytes hsz (show n ≤ nt by omega)
  have b2 := sample_bytes hsz (show off ≤ nt by omega)
  have b3 := sample_bytes hsz (show off + n ≤ nt by omega)
  rw [Nat.add_mul] at b3
  have m1 : mul64 n ns = n * ns := mul64_eq (by omega)
  have m2 : mul64 off ns = off * ns := mul64_eq (by omega)
  rw [m1, m2]
  obtain ⟨t, e1, e2, e3⟩ := fillSamples_spec bits (off * ns) (n * ns) 0 ⟨4 * (n * ns), fun _ => 0#8⟩
    (by show 4 * (0 + n * ns) ≤ 4 * (n * ns); omega) (by show 4 * (n * ns) ≤ 2 ^ 63; omega) (by omega)
  refine ⟨rfl, b1, t, e1, e2, fun j s hj hs => ?_⟩
  have h1 : (j + 1) * ns ≤ n * ns := Nat.mul_le_mul_right _ hj
  rw [Nat.add_mul] at h1
  rw [e3, if_pos (by omega), Nat.add_mul, Nat.add_assoc]

theorem blockC_spec (bits : Nat → BitVec 32) {ns nt : Nat} (h0 : 0 < ns) (hsz : taddr ns nt < 2 ^ 63) (hnt : nt ≤ 2 ^ 30)
    (c : Decomp.Dec) (hn : 0 < c.localSize) (hle : c.globalOffset + c.localSize ≤ nt) (o : Disk) :
    ∃ o', blockC bits ns ns c o = .ok o' ∧
      (∀ j, j < c.localSize → Hdr rowC ns (c.globalOffset + j) o' ∧ Samples bits ns (c.globalOffset + j) o') ∧
      ∀ x, (∀ j, j < c.localSize → ¬ (taddr ns (c.globalOffset + j) ≤ x ∧ x < taddr ns (c.globalOffset + j) + (240 + 4 * ns))) →
        o'.byte x = o.byte x := by
  obtain ⟨off, n⟩ := c
  dsimp only at hn hle ⊢
  obtain ⟨hsm, hinc, htr⟩ := small_of hsz hle
  obtain ⟨p, r1, r2, r3, r4, r5⟩ := rows_spec rowC_ok rowC_coords (by decide) (show off + n ≤ 2 ^ 30 by omega)
  obtain ⟨m1, m2, t, t1, t2, t3⟩ := samples_spec bits hsz hle
  obtain ⟨o', w1, w5, w6, w3, -, -, -⟩ := write_spec dbl ns (.start off) n (some t) (some p) 0 o nt hsm hinc
    (by rintro q h; cases h; rw [t2, Nat.mul_comm ns]; exact ⟨Nat.le_refl _, m2⟩)
    (by rintro q h; cases h; exact ⟨r2, by omega⟩) (by simp)
  have hpos : 0 < n * ns := Nat.mul_pos hn h0
  refine ⟨o', ?_, ?_, ?_⟩
  · unfold blockC
    rw [ctor_default, Res.ok_bind]
    dsimp only
    rw [r1, Res.ok_bind, if_neg (by omega), t1, Res.ok_bind]
    unfold CCopy.cWriteTrace
    dsimp only
    rw [w1, Res.ok_bind]
  · intro j hj
    refine ⟨⟨p, j, r2.wf, r3, (r5 j hj).1, (r5 j hj).2, ?_⟩, fun s hs => ?_⟩
    · have := w6 p rfl j hj
      rwa [htr j hj] at this
    · have := w5 t rfl j s hj hs
      rw [htr j hj] at this
      rw [this, t3 j s hj hs]
  · intro x hx
    refine w3 x fun j hj => ?_
    have := hx j hj
    rw [htr j hj]
    exact ⟨fun _ => by omega, fun _ => by omega⟩

theorem blockC_empty (bits : Nat → BitVec 32) (ns off : Nat) (o : Disk) : blockC bits ns ns ⟨off, 0⟩ o = .abort := by
  unfold blockC
  rw [ctor_default, Res.ok_bind]
  dsimp only
  rw [fillRows, Res.ok_bind, if_pos (by unfold mul64; simp)]

/-- What a share of the C++ version is for. -/
def PartDone (bits : Nat → BitVec 32) (ns : Nat) (c : Decomp.Dec × Bool) (o : Disk) : Prop :=
  ∀ j, j < c.1.localSize →
    (c.2 = false → Hdr rowCC ns (c.1.globalOffset + j) o) ∧ (c.2 = true → Samples bits ns (c.1.globalOffset + j) o)

/-- The bytes of a share of the C++ version. -/
def Part (ns : Nat) (c : Decomp.Dec × Bool) (x : Nat) : Prop :=
  ∃ j, j < c.1.localSize ∧
    (c.2 = false ∧ taddr ns (c.1.globalOffset + j) ≤ x ∧ x < taddr ns (c.1.globalOffset + j) + 240 ∨
      c.2 = true ∧ taddr ns (c.1.globalOffset + j) + 240 ≤ x ∧ x < taddr ns (c.1.globalOffset + j) + (240 + 4 * ns))

theorem blockCC_spec (bits : Nat → BitVec 32) {ns nt : Nat} (hsz : taddr ns nt < 2 ^ 63) (hnt : nt ≤ 2 ^ 30)
    (c : Decomp.Dec × Bool) (hle : c.1.globalOffset + c.1.localSize ≤ nt) (o : Disk) :
    ∃ o', blockCC bits ns ns c o = .ok o' ∧ PartDone bits ns c o' ∧ ∀ x, ¬ Part ns c x → o'.byte x = o.byte x := by
  obtain ⟨⟨off, n⟩, b⟩ := c
  dsimp only at hle
  obtain ⟨hsm, hinc, htr⟩ := small_of hsz hle
  obtain ⟨p, r1, r2, r3, r4, r5⟩ := rows_spec rowCC_ok rowCC_coords (by decide) (show off + n ≤ 2 ^ 30 by omega)
  obtain ⟨m1, m2, t, t1, t2, t3⟩ := samples_spec bits hsz hle
  cases b with
  | true =>
    obtain ⟨o', w1, w5, w6, w3, -, -, -⟩ := write_spec (F := ℚ) dbl ns (.start off) n (some t) none 0 o nt hsm hinc
      (by rintro q h; cases h; rw [t2, Nat.mul_comm ns]; exact ⟨Nat.le_refl _, m2⟩) (by simp) (by simp)
    refine ⟨o', ?_, fun j hj => ⟨by simp, fun _ => ?_⟩, fun x hx => ?_⟩
    · unfold blockCC
      rw [ctor_default, Res.ok_bind]
      dsimp only
      rw [r1, Res.ok_bind, if_pos rfl, t1, Res.ok_bind, w1, Res.ok_bind]
    · intro s hs
      have := w5 t rfl j s hj hs
      rw [htr j hj] at this
      exact this.trans (t3 j s hj hs)
    · refine w3 x fun j hj => ⟨by simp, fun _ hc => hx ⟨j, hj, Or.inr ⟨rfl, ?_⟩⟩⟩
      rw [htr j hj] at hc
      exact ⟨hc.1, by show x < taddr ns (off + j) + _; omega⟩
  | false =>
    obtain ⟨o', w1, w5, w6, w3, -, -, -⟩ := write_spec dbl ns (.start off) n none (some p) 0 o nt hsm hinc
      (by simp) (by rintro q h; cases h; exact ⟨r2, by omega⟩) (by simp)
    refine ⟨o', ?_, fun j hj => ⟨fun _ => ?_, by simp⟩, fun x hx => ?_⟩
    · unfold blockCC
      rw [ctor_default, Res.ok_bind]
      dsimp only
      rw [r1, Res.ok_bind, if_neg (by simp), w1, Res.ok_bind]
    · refine ⟨p, j, r2.wf, r3, (r5 j hj).1, (r5 j hj).2, ?_⟩
      have := w6 p rfl j hj
      rwa [htr j hj] at this
    · refine w3 x fun j hj => ⟨fun _ hc => hx ⟨j, hj, Or.inl ⟨rfl, ?_⟩⟩, by simp⟩
      rw [htr j hj] at hc
      exact hc

/-! ## All shares -/

theorem run_disjoint {α : Type} (f : α → Disk → Res Disk) (T : α → Nat → Prop) (Q : α → Disk → Prop) (l : List α) :
    (∀ c ∈ l, ∀ o, ∃ o', f c o = .ok o' ∧ Q c o' ∧ ∀ x, ¬ T c x → o'.byte x = o.byte x) →
    (∀ c ∈ l, ∀ o o', Q c o → (∀ x, T c x → o'.byte x = o.byte x) → Q c o') →
    l.Pairwise (fun a b => ∀ x, T a x → ¬ T b x) → ∀ o,
    ∃ o', runBlocks f l o = .ok o' ∧ (∀ c ∈ l, Q c o') ∧ ∀ x, (∀ c ∈ l, ¬ T c x) → o'.byte x = o.byte x := by
  induction l with
  | nil => intro _ _ _ o; exact ⟨o, rfl, by simp, fun _ _ => rfl⟩
  | cons a l ih =>
    intro hf hq hd o
    rw [List.pairwise_cons] at hd
    obtain ⟨o1, e1, e2, e3⟩ := hf a (by simp) o
    obtain ⟨o2, g1, g2, g3⟩ := ih (fun c hc => hf c (by simp [hc])) (fun c hc => hq c (by simp [hc])) hd.2 o1
    refine ⟨o2, by unfold runBlocks; rw [e1, Res.ok_bind, g1], ?_, ?_⟩
    · intro c hc
      rcases List.mem_cons.1 hc with rfl | hc
      · exact hq c (by simp) o1 o2 e2 fun x hx => g3 x fun b hb => hd.1 b hb x hx
      · exact g2 c hc
    · intro x hx
      rw [g3 x fun c hc => hx c (by simp [hc]), e3 x (hx a (by simp))]

/-- The shares of `P` processes. -/
def decs (nt P : Nat) : List Decomp.Dec := (List.range P).map fun r => ⟨Decomp.off nt P r, Decomp.sz nt P r⟩

theorem decs_eq {nt P : Nat} (hP : 0 < P) (hnt : nt < 2 ^ 64) :
    Flow.collect (Decomp.blockDecomposition nt P) (List.range P) = .ok (decs nt P) :=
  collect_ok fun _ hr => Decomp.blockDecomposition_eq hP (List.mem_range.1 hr) hnt

theorem decs_le {nt P : Nat} (hP : 0 < P) : ∀ c ∈ decs nt P, c.globalOffset + c.localSize ≤ nt := by
  intro c hc
  obtain ⟨r, hr, rfl⟩ := List.mem_map.1 hc
  have := Decomp.off_le nt P (r + 1) hP (List.mem_range.1 hr)
  rwa [Decomp.off_succ] at this

theorem decs_pairwise (nt P : Nat) :
    (decs nt P).Pairwise fun a b => a.globalOffset + a.localSize ≤ b.globalOffset := by
  unfold decs
  rw [List.pairwise_map]
  refine List.Pairwise.imp ?_ List.pairwise_lt_range
  intro a b hab
  have := Decomp.off_mono nt P (Nat.succ_le_of_lt hab)
  rwa [Nat.succ_eq_add_one, Decomp.off_succ] at this

theorem decs_cover {nt P k : Nat} (hP : 0 < P) (hk : k < nt) :
    ∃ c ∈ decs nt P, ∃ j, j < c.localSize ∧ c.globalOffset + j = k := by
  have := Decomp.flatMap_range nt P P
  rw [Decomp.off_last nt P hP] at this
  have hm := List.mem_range.2 hk
  rw [← this] at hm
  obtain ⟨r, hr, hk'⟩ := List.mem_flatMap.1 hm
  rw [List.mem_range'_1] at hk'
  exact ⟨_, List.mem_map.2 ⟨r, hr, rfl⟩, k - Decomp.off nt P r, by dsimp only; omega, by dsimp only; omega⟩

theorem runC_spec (bits : Nat → BitVec 32) {ns nt P : Nat} (h0 : 0 < ns) (hsz : taddr ns nt < 2 ^ 63) (hnt : nt ≤ 2 ^ 30)
    (hP : 0 < P) (hle : P ≤ nt) {l : List Decomp.Dec} (hl : l.Perm (decs nt P)) (o : Disk) :
    ∃ o', runBlocks (blockC bits ns ns) l o = .ok o' ∧ (∀ k, k < nt → Hdr rowC ns k o' ∧ Samples bits ns k o') ∧
      ∀ x, x < 3600 → o'.byte x = o.byte x := by
  have hpos : ∀ c ∈ decs nt P, 0 < c.localSize := by
    intro c hc
    obtain ⟨r, -, rfl⟩ := List.mem_map.1 hc
    have : 0 < nt / P := Nat.div_pos hle hP
    unfold Decomp.sz
    dsimp only; omega
  obtain ⟨o', e1, e2, e3⟩ := run_disjoint (blockC bits ns ns)
    (fun c x => ∃ j, j < c.localSize ∧ taddr ns (c.globalOffset + j) ≤ x ∧ x < taddr ns (c.globalOffset + j) + (240 + 4 * ns))
    (fun c o => ∀ j, j < c.localSize → Hdr rowC ns (c.globalOffset + j) o ∧ Samples bits ns (c.globalOffset + j) o) l
    (fun c hc o => by
      have hc := hl.mem_iff.1 hc
      obtain ⟨o', g1, g2, g3⟩ := blockC_spec bits h0 hsz hnt c (hpos c hc) (decs_le hP c hc) o
      exact ⟨o', g1, g2, fun x hx => g3 x fun j hj hc => hx ⟨j, hj, hc⟩⟩)
    (fun c _ o o' hq he j hj => ⟨(hq j hj).1.congr fun x hx => he x ⟨j, hj, by omega, by omega⟩,
      (hq j hj).2.congr fun x hx => he x ⟨j, hj, by omega, by omega⟩⟩)
    (by
      rw [hl.pairwise_iff (by rintro a b h x hb ha; exact h x ha hb)]
      refine (decs_pairwise nt P).imp ?_
      rintro a b hab x ⟨j, hj, hx⟩ ⟨j', hj', hx'⟩
      have := taddr_le (ns := ns) (show a.globalOffset + j < b.globalOffset + j' by omega)
      omega) o
  refine ⟨o', e1, fun k hk => ?_, fun x hx => e3 x ?_⟩
  · obtain ⟨c, hc, j, hj, rfl⟩ := decs_cover hP hk
    exact e2 c (hl.mem_iff.2 hc) j hj
  · rintro c - ⟨j, -, h, -⟩
    have : 3600 ≤ taddr ns (c.globalOffset + j) := by unfold taddr; omega
    omega

theorem runCC_spec (bits : Nat → BitVec 32) {ns nt P : Nat} (hsz : taddr ns nt < 2 ^ 63) (hnt : nt ≤ 2 ^ 30)
    (hP : 0 < P) {l : List (Decomp.Dec × Bool)} (hl : l.Perm ((decs nt P).flatMap fun c => [(c, false), (c, true)])) (o : Disk) :
    ∃ o', runBlocks (blockCC bits ns ns) l o = .ok o' ∧ ∀ k, k < nt → Hdr rowCC ns k o' ∧ Samples bits ns k o' := by
  have hmem : ∀ c b, (c, b) ∈ l ↔ c ∈ decs nt P := by
    intro c b
    rw [hl.mem_iff, List.mem_flatMap]
    constructor
    · rintro ⟨a, ha, h⟩
      simp only [List.mem_cons, Prod.mk.injEq, List.not_mem_nil, or_false] at h
      rcases h with ⟨rfl, -⟩ | ⟨rfl, -⟩ <;> exact ha
    · intro h
      exact ⟨c, h, by cases b <;> simp⟩
  obtain ⟨o', e1, e2, -⟩ := run_disjoint (blockCC bits ns ns) (Part ns) (PartDone bits ns) l
    (fun c hc o => blockCC_spec bits hsz hnt c (decs_le hP c.1 ((hmem c.1 c.2).1 hc)) o)
    (fun c _ o o' hq he j hj => ⟨fun hb => ((hq j hj).1 hb).congr fun x hx => he x ⟨j, hj, Or.inl ⟨hb, hx⟩⟩,
      fun hb => ((hq j hj).2 hb).congr fun x hx => he x ⟨j, hj, Or.inr ⟨hb, hx⟩⟩⟩)
    (by
      rw [hl.pairwise_iff (by rintro a b h x hb ha; exact h x ha hb), List.pairwise_flatMap]
      constructor
      · intro c hc
        rw [List.pairwise_pair]
        rintro x ⟨j, hj, ⟨-, h1, h2⟩ | ⟨h, -⟩⟩ ⟨j', hj', ⟨h', -⟩ | ⟨-, h3, h4⟩⟩
        · cases h'
        · dsimp only at h1 h2 h3 h4
          exact apart (ns := ns) (k := c.globalOffset + j) (k' := c.globalOffset + j') (a := 0) (b := 240) (c := 240)
            (e := 240 + 4 * ns) ⟨h1, h2⟩ (by omega) (by omega) (fun _ => Or.inl (Nat.le_refl _)) ⟨h3, h4⟩
        · cases h
        · cases h
      · refine (decs_pairwise nt P).imp ?_
        intro a b hab a' ha b' hb x hx hx'
        have k1 : a'.1 = a := by
          simp only [List.mem_cons, List.not_mem_nil, or_false] at ha; rcases ha with rfl | rfl <;> rfl
        have k2 : b'.1 = b := by
          simp only [List.mem_cons, List.not_mem_nil, or_false] at hb; rcases hb with rfl | rfl <;> rfl
        obtain ⟨j, hj, hx⟩ := hx
        obtain ⟨j', hj', hx'⟩ := hx'
        rw [k1] at hj hx
        rw [k2] at hj' hx'
        have := taddr_le (ns := ns) (show a.globalOffset + j < b.globalOffset + j' by omega)
        omega) o
  refine ⟨o', e1, fun k hk => ?_⟩
  obtain ⟨c, hc, j, hj, rfl⟩ := decs_cover hP hk
  exact ⟨(e2 (c, false) ((hmem c false).2 hc) j hj).1 rfl, (e2 (c, true) ((hmem c true).2 hc) j hj).2 rfl⟩

/-! ## Closing -/

/-- The calls of all processes as a history, with `q` calls that write. -/
def history (nt ns P q : Nat) (inc : ℚ) : List Files.Step :=
  [.ns ns, .nt nt, .inc inc, .text testText] ++
    (List.range q).map fun _ => .write fun r => (Decomp.off nt P r, Decomp.sz nt P r)

/-- The writer of process `r` at the end. -/
def endW (nt ns P q : Nat) (inc : ℚ) (r : Nat) : W :=
  ((List.range q).map fun _ => (Decomp.off nt P r, Decomp.sz nt P r)).foldl (fun w c => w.writeTrace c.1 c.2)
    (headerCalls nt ns inc)

theorem endW_eq (nt ns P q : Nat) (inc : ℚ) (r : Nat) : endW nt ns P q inc r = runW1 r (history nt ns P q inc) := by
  unfold runW1 history endW
  rw [List.foldl_append, CCopy.foldl_writes r (fun r _ => (Decomp.off nt P r, Decomp.sz nt P r))]
  rfl

theorem headerCalls_ns {nt ns : Nat} (h1 : ns ≤ 32767) (inc : ℚ) :
    (headerCalls nt ns inc).ns = ns ∧ (headerCalls nt ns inc).nsSet = true ∧
      ((headerCalls nt ns inc).err = true ↔ |inc| < 2 ^ (-1022 : ℤ)) := by
  have ht : ∀ w : W, (w.writeText testText).ns = w.ns ∧ (w.writeText testText).nsSet = w.nsSet ∧
      (w.writeText testText).err = w.err := by
    intro w; unfold W.writeText; split <;> exact ⟨rfl, rfl, rfl⟩
  have hi : ∀ w : W, w.err = false → (w.writeInc inc).ns = w.ns ∧ (w.writeInc inc).nsSet = w.nsSet ∧
      ((w.writeInc inc).err = true ↔ |inc| < 2 ^ (-1022 : ℤ)) := by
    intro w h
    unfold W.writeInc
    split
    · rename_i hc; exact ⟨rfl, rfl, fun _ => hc, fun _ => rfl⟩
    · rename_i hc
      split
      · exact ⟨rfl, rfl, by dsimp only; rw [h]; simp, fun h => absurd h hc⟩
      · exact ⟨rfl, rfl, by rw [h]; simp, fun h => absurd h hc⟩
  have hc : ∀ w : W, (w.writeNt nt).ns = w.ns ∧ (w.writeNt nt).nsSet = w.nsSet ∧ (w.writeNt nt).err = w.err := by
    intro w; unfold W.writeNt; split <;> exact ⟨rfl, rfl, rfl⟩
  have hn : (W.new.writeNs ns).ns = ns ∧ (W.new.writeNs ns).nsSet = true ∧ (W.new.writeNs ns).err = false := by
    unfold W.writeNs
    rw [if_neg (by omega)]
    split
    · exact ⟨rfl, rfl, rfl⟩
    · rename_i h
      exact ⟨not_not.1 h, rfl, rfl⟩
  unfold headerCalls
  obtain ⟨a1, a2, a3⟩ := hc (W.new.writeNs ns)
  obtain ⟨b1, b2, b3⟩ := hi ((W.new.writeNs ns).writeNt nt) (by rw [a3]; exact hn.2.2)
  obtain ⟨c1, c2, c3⟩ := ht (((W.new.writeNs ns).writeNt nt).writeInc inc)
  refine ⟨by rw [c1, b1, a1, hn.1], by rw [c2, b2, a2, hn.2.1], by rw [c3]; exact b3⟩

theorem close_made {nt ns P q : Nat} {inc : ℚ} (hP : 0 < P) (h0 : 0 < ns) (h1 : ns ≤ 32767)
    (hsz : taddr ns nt < 2 ^ 63) (hinc : (2 : ℚ) ^ (-1022 : ℤ) ≤ |inc|) {m : ℤ} (hm0 : -2 ^ 63 ≤ m) (hm1 : m < 2 ^ 63)
    (hm : lround (rnd (inc / micro)) = m) (o : Disk) :
    ∃ o', close ((List.range P).map (endW nt ns P q inc)) o = .ok o' ∧
      o'.size = plainSz nt ns ∧ (∀ x, 3600 ≤ x → o'.byte x = o.byte x) ∧
      openRead o' = .ok ⟨ns, nt, rnd (micro * (BitVec.ofInt 16 m).toInt), 5#16, CharEnc.readText (shown testText)⟩ := by
  have heq : (List.range P).map (endW nt ns P q inc) = runAllW P (history nt ns P q inc) :=
    List.map_congr_left fun r _ => endW_eq nt ns P q inc r
  have hl : ∀ {α : Type} (sel : Files.Step → Option α), (∀ f, sel (.write f) = none) →
      last? sel (history nt ns P q inc) = last? sel [.ns ns, .nt nt, .inc inc, .text testText] :=
    fun sel hs => CCopy.last_write sel hs _ (fun _ r => (Decomp.off nt P r, Decomp.sz nt P r)) _
  obtain ⟨a1, a2, a3⟩ := headerCalls_ns (nt := nt) h1 inc
  have hle : ∀ r, r < P → Decomp.off nt P r + Decomp.sz nt P r ≤ nt := fun r hr => by
    have := Decomp.off_le nt P (r + 1) hP hr
    rwa [Decomp.off_succ] at this
  have hcount : IsCount P (history nt ns P q inc) nt := by
    refine Or.inl ⟨[.ns ns], [.inc inc, .text testText] ++
      (List.range q).map fun _ => .write fun r => (Decomp.off nt P r, Decomp.sz nt P r), rfl, ?_, fun r hr => ⟨?_, ?_, ?_⟩⟩
    · exact CCopy.last_write Files.Step.nt? (fun _ => rfl) (List.range q) (fun _ r => (Decomp.off nt P r, Decomp.sz nt P r))
        [.inc inc, .text testText]
    all_goals
      intro f hf
      simp only [List.cons_append, List.nil_append, List.mem_cons, List.mem_map, reduceCtorEq, false_or] at hf
      obtain ⟨c, -, hf⟩ := hf
      cases hf
    exact hle r hr
  rw [heq]
  have := close_stored P hP (history nt ns P q inc) o ns nt m ?_ ?_ (by omega) hcount hsz hm0 hm1 ?_ ?_
  · obtain ⟨o', e1, e2, e3, e4⟩ := this
    refine ⟨o', e1, e2, e3, ?_⟩
    rw [hl Files.Step.text? (fun _ => rfl)] at e4
    exact e4
  · intro r hr
    rw [← endW_eq]
    refine CCopy.foldl_noerr _ _ ?_ a2
    rw [← Bool.not_eq_true, a3]
    exact not_lt.2 hinc
  · rw [hl Files.Step.ns? (fun _ => rfl)]; rfl
  · rw [hl Files.Step.inc? (fun _ => rfl)]; exact hm
  · rw [hl Files.Step.text? (fun _ => rfl)]
    show ∀ x ∈ testText, x < 256
    decide

/-- The text a reader gets. -/
theorem text_again : CharEnc.readText (shown testText) = testText ++ List.replicate 3190 0 := by
  have hs : shown testText = testText ++ List.replicate 3190 0 := by
    unfold shown
    rw [List.take_of_length_le (by decide)]
    rfl
  have hz : ∀ n, (List.replicate n 0).countP CharEnc.printableASCII = 0 ∧
      (List.replicate n 0).countP CharEnc.printableEBCDIC = 0 := by
    intro n
    constructor <;>
    · rw [List.countP_eq_zero]
      intro x hx
      rw [List.eq_of_mem_replicate hx]
      decide
  rw [hs]
  generalize 3190 = n
  unfold CharEnc.readText
  rw [List.countP_append, List.countP_append, (hz n).1, (hz n).2, if_pos (by decide)]

theorem narrow (n : Nat) : (BitVec.ofNat 64 n).setWidth 32 = BitVec.ofNat 32 n := by
  apply BitVec.eq_of_toNat_eq
  rw [BitVec.toNat_setWidth, BitVec.toNat_ofNat, BitVec.toNat_ofNat, Nat.mod_mod_of_dvd _ (by norm_num)]

theorem trunc_nat (n : Nat) : trunc (n : ℚ) = n := by
  unfold trunc
  rw [if_pos (Nat.cast_nonneg n)]
  exact Int.floor_natCast n

theorem run_createC (bits : Nat → BitVec 32) (sched : List Decomp.Dec → List Decomp.Dec) {P nt ns : Nat} (hP : 0 < P)
    (h1 : ns ≤ 32767) (hnt : nt ≤ 2 ^ 30) (inc : ℚ) (out : Disk) :
    createC bits sched P nt ns inc out = (runBlocks (blockC bits ns ns) (sched (decs nt P)) out >>= fun o =>
      close ((List.range P).map (endW nt ns P 1 inc)) o) := by
  unfold createC
  rw [decs_eq hP (by omega), Res.ok_bind]
  dsimp only
  rw [(headerCalls_ns h1 inc).1]
  unfold decs
  rw [List.map_map]
  rfl

theorem run_createCC (bits : Nat → BitVec 32) (sched : List (Decomp.Dec × Bool) → List (Decomp.Dec × Bool)) {P nt ns : Nat}
    (hP : 0 < P) (h1 : ns ≤ 32767) (hnt : nt ≤ 2 ^ 30) (inc : ℚ) (out : Disk) :
    createCC bits sched P nt ns inc out =
      (runBlocks (blockCC bits ns ns) (sched ((decs nt P).flatMap fun c => [(c, false), (c, true)])) out >>= fun o =>
      close ((List.range P).map (endW nt ns P 2 inc)) o) := by
  unfold createCC
  rw [decs_eq hP (by omega), Res.ok_bind]
  dsimp only
  rw [(headerCalls_ns h1 inc).1]
  unfold decs
  rw [List.map_map]
  rfl

theorem createC_spec (bits : Nat → BitVec 32) (sched : List Decomp.Dec → List Decomp.Dec) (hs : ∀ l, (sched l).Perm l)
    {P nt ns : Nat} (hP : 0 < P) (hle : P ≤ nt) (h0 : 0 < ns) (h1 : ns ≤ 32767) (hnt : nt ≤ 2 ^ 30)
    {inc : ℚ} (hinc : (2 : ℚ) ^ (-1022 : ℤ) ≤ |inc|) {m : ℤ} (hm0 : -2 ^ 63 ≤ m) (hm1 : m < 2 ^ 63)
    (hm : lround (rnd (inc / micro)) = m) (out : Disk) :
    ∃ out', createC bits sched P nt ns inc out = .ok out' ∧ out'.size = 3600 + nt * (240 + 4 * ns) ∧
      openRead out' = .ok ⟨ns, nt, rnd (micro * (BitVec.ofInt 16 m).toInt), 5#16, testText ++ List.replicate 3190 0⟩ ∧
      ∀ k, k < nt → Made bits ns k (2400 + k) (1600 + k) (single k) out' := by
  have hsz : taddr ns nt < 2 ^ 63 := by
    have : nt * (240 + 4 * ns) ≤ 2 ^ 30 * (240 + 4 * 32767) := Nat.mul_le_mul hnt (by omega)
    unfold taddr
    omega
  obtain ⟨o1, a1, a2, -⟩ := runC_spec bits h0 hsz hnt hP hle (hs (decs nt P)) out
  obtain ⟨o2, b1, b2, b3, b4⟩ := close_made (q := 1) hP h0 h1 hsz hinc hm0 hm1 hm o1
  refine ⟨o2, by rw [run_createC bits sched hP h1 hnt, a1, Res.ok_bind, b1], b2, by rw [b4, text_again], fun k hk => ?_⟩
  have ht : 3600 ≤ taddr ns k := by unfold taddr; omega
  exact ((a2 k hk).1.congr fun x hx => b3 x (by omega)).made rowC_coords (by have := single_le (n := k) (by omega); omega)
    ((a2 k hk).2.congr fun x hx => b3 x (by omega))
    ⟨.inr (BitVec.ofNat 64 k), by simp [rowC], narrow k⟩ ⟨.inr (BitVec.ofNat 64 (2400 + k)), by simp [rowC], narrow _⟩
    ⟨.inr (BitVec.ofNat 64 (1600 + k)), by simp [rowC], narrow _⟩

theorem createCC_spec (bits : Nat → BitVec 32) (sched : List (Decomp.Dec × Bool) → List (Decomp.Dec × Bool))
    (hs : ∀ l, (sched l).Perm l) {P nt ns : Nat} (hP : 0 < P) (h0 : 0 < ns) (h1 : ns ≤ 32767) (hnt : nt ≤ 2 ^ 30)
    {inc : ℚ} (hinc : (2 : ℚ) ^ (-1022 : ℤ) ≤ |inc|) {m : ℤ} (hm0 : -2 ^ 63 ≤ m) (hm1 : m < 2 ^ 63)
    (hm : lround (rnd (inc / micro)) = m) (out : Disk) :
    ∃ out', createCC bits sched P nt ns inc out = .ok out' ∧ out'.size = 3600 + nt * (240 + 4 * ns) ∧
      openRead out' = .ok ⟨ns, nt, rnd (micro * (BitVec.ofInt 16 m).toInt), 5#16, testText ++ List.replicate 3190 0⟩ ∧
      ∀ k, k < nt → Made bits ns k (single (2400 + single k)) (single (1600 + single k)) (single k) out' := by
  have hsz : taddr ns nt < 2 ^ 63 := by
    have : nt * (240 + 4 * ns) ≤ 2 ^ 30 * (240 + 4 * 32767) := Nat.mul_le_mul hnt (by omega)
    unfold taddr
    omega
  obtain ⟨o1, a1, a2⟩ := runCC_spec bits hsz hnt hP (hs ((decs nt P).flatMap fun c => [(c, false), (c, true)])) out
  obtain ⟨o2, b1, b2, b3, b4⟩ := close_made (q := 2) hP h0 h1 hsz hinc hm0 hm1 hm o1
  refine ⟨o2, by rw [run_createCC bits sched hP h1 hnt, a1, Res.ok_bind, b1], b2, by rw [b4, text_again], fun k hk => ?_⟩
  have ht : 3600 ≤ taddr ns k := by unfold taddr; omega
  have hv : ∀ n : Nat, (vI (.inl (n : ℚ))).setWidth 32 = BitVec.ofNat 32 n := by
    intro n
    show (BitVec.ofInt 64 (trunc (n : ℚ))).setWidth 32 = _
    rw [trunc_nat, BitVec.ofInt_natCast, narrow]
  exact ((a2 k hk).1.congr fun x hx => b3 x (by omega)).made rowCC_coords (by have := single_le (n := k) (by omega); omega)
    ((a2 k hk).2.congr fun x hx => b3 x (by omega))
    ⟨.inr (BitVec.ofNat 64 k), by simp [rowCC], narrow k⟩ ⟨.inl (single (2400 + single k) : Nat), by simp [rowCC], hv _⟩
    ⟨.inl (single (1600 + single k) : Nat), by simp [rowCC], hv _⟩

/-! ## The property -/

theorem inc_ok {inc : ℚ} {m : ℤ} (hm0 : 1 ≤ m) (hm1 : m ≤ 32767) (hinc : |inc * 10 ^ 6 - m| ≤ 1 / 4) :
    (2 : ℚ) ^ (-1022 : ℤ) ≤ |inc| ∧ lround (rnd (inc / micro)) = m ∧ (BitVec.ofInt 16 m).toInt = m := by
  refine ⟨?_, stored_inc (by omega) hm1 hinc, by rw [BitVec.toInt_ofInt, Int.bmod_eq_of_le] <;> omega⟩
  rw [abs_le] at hinc
  have h1 : (1 : ℚ) ≤ m := by exact_mod_cast hm0
  have h2 : (2 : ℚ) ^ (-1022 : ℤ) ≤ 2 ^ (-21 : ℤ) := zpow_le_zpow_right₀ (by norm_num) (by norm_num)
  have h3 : (2 : ℚ) ^ (-21 : ℤ) = 1 / 2097152 := by rw [zpow_neg]; norm_num
  have h4 : 1 / 2097152 ≤ inc := by linarith [hinc.1]
  exact (h2.trans (h3.le.trans h4)).trans (le_abs_self _)

/-- **C82**: the C++ version of the example that creates a file. On any number of processes, whatever the order of their calls
and whatever the file held before, with an interval of `m` microseconds and fewer than `2^24 - 2398` traces, the file opens
with the given number of samples, number of traces and interval and with the text, and every trace has its number, lines,
coordinates and samples, and zeros elsewhere in the header. Missing: more traces (`C82_lines_refuted`,
`C82_coords_refuted`) and longer intervals (`C82_example1_refuted`). -/
theorem C82_create_partial (bits : Nat → BitVec 32) (sched : List (Decomp.Dec × Bool) → List (Decomp.Dec × Bool))
    (hs : ∀ l, (sched l).Perm l) (P nt ns : Nat) (hP : 0 < P) (h0 : 0 < ns) (h1 : ns ≤ 32767) (hnt : nt + 2399 ≤ 2 ^ 24)
    (inc : ℚ) (m : ℤ) (hm0 : 1 ≤ m) (hm1 : m ≤ 32767) (hinc : |inc * 10 ^ 6 - m| ≤ 1 / 4) (out : Disk) :
    ∃ out', createCC bits sched P nt ns inc out = .ok out' ∧ out'.size = 3600 + nt * (240 + 4 * ns) ∧
      openRead out' = .ok ⟨ns, nt, rnd (micro * m), 5#16, testText ++ List.replicate 3190 0⟩ ∧
      ∀ k, k < nt → Made bits ns k (2400 + k) (1600 + k) k out' := by
  obtain ⟨i1, i2, i3⟩ := inc_ok hm0 hm1 hinc
  obtain ⟨o, e1, e2, e3, e4⟩ := createCC_spec bits sched hs hP h0 h1 (nt := nt) (by omega) i1 (by omega) (by omega) i2 out
  rw [i3] at e3
  refine ⟨o, e1, e2, e3, fun k hk => ?_⟩
  have := e4 k hk
  rwa [single_small (n := k) (by omega), single_small (by omega), single_small (by omega)] at this

/-- **C82**: the C version, with at most as many processes as traces, for which the line numbers are right for longer. Missing:
more processes (`C82_processes_refuted`); the interval, a `double` here and in `example1.c`, is a whole number in
`exampleCreateFile.c` (`C82_interval_refuted`). -/
theorem C82_ccreate_partial (bits : Nat → BitVec 32) (sched : List Decomp.Dec → List Decomp.Dec)
    (hs : ∀ l, (sched l).Perm l) (P nt ns : Nat) (hP : 0 < P) (hle : P ≤ nt) (h0 : 0 < ns) (h1 : ns ≤ 32767) (hnt : nt ≤ 2 ^ 24)
    (inc : ℚ) (m : ℤ) (hm0 : 1 ≤ m) (hm1 : m ≤ 32767) (hinc : |inc * 10 ^ 6 - m| ≤ 1 / 4) (out : Disk) :
    ∃ out', createC bits sched P nt ns inc out = .ok out' ∧ out'.size = 3600 + nt * (240 + 4 * ns) ∧
      openRead out' = .ok ⟨ns, nt, rnd (micro * m), 5#16, testText ++ List.replicate 3190 0⟩ ∧
      ∀ k, k < nt → Made bits ns k (2400 + k) (1600 + k) k out' := by
  obtain ⟨i1, i2, i3⟩ := inc_ok hm0 hm1 hinc
  obtain ⟨o, e1, e2, e3, e4⟩ := createC_spec bits sched hs (nt := nt) hP hle h0 h1 (by omega) i1 (by omega) (by omega) i2 out
  rw [i3] at e3
  refine ⟨o, e1, e2, e3, fun k hk => ?_⟩
  have := e4 k hk
  rwa [single_small (by omega)] at this

theorem cent : |rnd (1 / 100) * 10 ^ 6 - (10000 : ℤ)| ≤ 1 / 4 := by
  have h : (2 : ℚ) ^ (-1022 : ℤ) ≤ |1 / 100| := by
    have h2 : (2 : ℚ) ^ (-1022 : ℤ) ≤ 2 ^ (-21 : ℤ) := zpow_le_zpow_right₀ (by norm_num) (by norm_num)
    refine h2.trans ?_
    rw [zpow_neg]
    norm_num
  have := rnd_err h
  rw [abs_le] at this ⊢
  norm_num at this ⊢
  constructor <;> linarith [this.1, this.2]

/-- **C82**: what `exampleCreateFile.cc` makes, on any number of processes: 8000 traces of 4000 samples, 10 ms. -/
theorem C82_maincc_partial (bits : Nat → BitVec 32) (sched : List (Decomp.Dec × Bool) → List (Decomp.Dec × Bool))
    (hs : ∀ l, (sched l).Perm l) (P : Nat) (hP : 0 < P) (out : Disk) :
    ∃ out', mainCC bits sched P out = .ok out' ∧
      openRead out' = .ok ⟨4000, 8000, rnd (micro * 10000), 5#16, testText ++ List.replicate 3190 0⟩ ∧
      ∀ k, k < 8000 → Made bits 4000 k (2400 + k) (1600 + k) k out' := by
  obtain ⟨o, e1, -, e3, e4⟩ := C82_create_partial bits sched hs P 8000 4000 hP (by norm_num) (by norm_num) (by norm_num)
    (rnd (1 / 100)) 10000 (by norm_num) (by norm_num) cent out
  refine ⟨o, e1, ?_, e4⟩
  rw [e3]
  norm_num

/-- **C82** refuted: `exampleCreateFile.c`, by its `main` a program for the same file. The interval is lost in a conversion
to a whole number; refusing it keeps the headers from being written at all: none of the first 3600 bytes of the file
changes, on any number of processes up to that of traces. -/
theorem C82_main_refuted (bits : Nat → BitVec 32) (sched : List Decomp.Dec → List Decomp.Dec)
    (hs : ∀ l, (sched l).Perm l) (P : Nat) (hP : 0 < P) (hle : P ≤ 8000) (out : Disk) :
    ∃ out', mainC bits sched P out = .ok out' ∧ (∀ x, x < 3600 → out'.byte x = out.byte x) ∧
      ∀ k, k < 8000 → ∀ s, s < 4000 → dsamp out' 4000 k s = bits (k * 4000 + s) := by
  have hinc : ((trunc (rnd (1 / 100))).toNat : ℚ) = 0 := by
    have h := cent
    rw [abs_le] at h
    norm_num at h
    have h1 : (0 : ℚ) ≤ rnd (1 / 100) := by norm_num; linarith [h.1]
    have h2 : rnd (1 / 100) < 1 := by norm_num; linarith [h.2]
    have : trunc (rnd (1 / 100)) = 0 := by
      unfold trunc
      rw [if_pos h1, Int.floor_eq_zero_iff]
      exact ⟨h1, h2⟩
    rw [this]
    rfl
  obtain ⟨o1, a1, a2, a3⟩ := runC_spec bits (ns := 4000) (nt := 8000) (by norm_num) (by unfold taddr; norm_num) (by norm_num) hP
    hle (hs (decs 8000 P)) out
  refine ⟨o1, ?_, a3, fun k hk => (a2 k hk).2⟩
  unfold mainC
  rw [run_createC bits sched hP (by norm_num) (by norm_num), a1, Res.ok_bind, hinc]
  have herr : ∀ r, (endW 8000 4000 P 1 0 r).err = true := by
    intro r
    have := (headerCalls_ns (nt := 8000) (ns := 4000) (by norm_num) 0).2.2.2 (by rw [abs_zero]; exact two_zpow_pos _)
    show ((headerCalls 8000 4000 0).err || _) = true
    rw [this]
    rfl
  unfold close
  rw [agree_const (a := true) (by simp; omega) (by
    intro x hx
    obtain ⟨w, hw, rfl⟩ := List.mem_map.1 hx
    obtain ⟨r, -, rfl⟩ := List.mem_map.1 hw
    exact herr r), Res.ok_bind, if_pos rfl]

/-- **C82** refuted: the function of the C version takes the interval as a whole number of seconds, and of no positive
number does the file say so: a reader finds less than a second. -/
theorem C82_interval_refuted (bits : Nat → BitVec 32) (sched : List Decomp.Dec → List Decomp.Dec)
    (hs : ∀ l, (sched l).Perm l) (P nt ns : Nat) (hP : 0 < P) (hle : P ≤ nt) (h0 : 0 < ns) (h1 : ns ≤ 32767) (hnt : nt ≤ 2 ^ 30)
    (inc : Nat) (hi0 : 1 ≤ inc) (hi1 : inc < 2 ^ 32) (out : Disk) :
    ∃ out' i, createC bits sched P nt ns inc out = .ok out' ∧ openRead out' = .ok i ∧ i.ns = ns ∧ i.nt = nt ∧ i.inc < inc := by
  have hq0 : (1 : ℚ) ≤ inc := by exact_mod_cast hi0
  have hq1 : (inc : ℚ) ≤ 2 ^ 32 := by exact_mod_cast hi1.le
  have hp := micro_pos
  obtain ⟨b1, b2⟩ := micro_bounds
  have hx0 : ((0 : ℤ) : ℚ) ≤ inc / micro := by rw [Int.cast_zero]; exact div_nonneg (by linarith) hp.le
  have hx1 : inc / micro ≤ ((2 ^ 52 : ℤ) : ℚ) := by
    rw [div_le_iff₀ hp]
    push_cast
    have : (2 : ℚ) ^ 52 * (1 / 10 ^ 6 * (1 - 1 / 2 ^ 53)) ≤ 2 ^ 52 * micro := mul_le_mul_of_nonneg_left b1 (by norm_num)
    refine le_trans (le_trans hq1 ?_) this
    norm_num
  have r0 := rnd_ge (isDouble_int (n := 0) (by norm_num)) hx0
  have r1 := rnd_le (isDouble_int (n := 2 ^ 52) (by norm_num)) hx1
  have e := lround_err (rnd ((inc : ℚ) / micro))
  rw [abs_le] at e
  push_cast at r0 r1
  have m0 : -2 ^ 63 ≤ lround (rnd ((inc : ℚ) / micro)) := by
    have : ((-2 ^ 63 : ℤ) : ℚ) ≤ lround (rnd ((inc : ℚ) / micro)) := by push_cast; linarith [e.1]
    exact_mod_cast this
  have m1 : lround (rnd ((inc : ℚ) / micro)) < 2 ^ 63 := by
    have : ((lround (rnd ((inc : ℚ) / micro)) : ℤ) : ℚ) < ((2 ^ 63 : ℤ) : ℚ) := by
      push_cast
      linarith [e.2]
    exact_mod_cast this
  have hinc : (2 : ℚ) ^ (-1022 : ℤ) ≤ |(inc : ℚ)| := by
    have h2 : (2 : ℚ) ^ (-1022 : ℤ) ≤ 2 ^ (0 : ℤ) := zpow_le_zpow_right₀ (by norm_num) (by norm_num)
    rw [zpow_zero] at h2
    exact (h2.trans hq0).trans (le_abs_self _)
  obtain ⟨o, e1, -, e3, -⟩ := createC_spec bits sched hs hP hle h0 h1 hnt hinc m0 m1 rfl out
  refine ⟨o, _, e1, e3, rfl, rfl, ?_⟩
  dsimp only
  generalize lround (rnd ((inc : ℚ) / micro)) = m
  have hle : (BitVec.ofInt 16 m).toInt ≤ 32767 := by have := BitVec.toInt_lt (x := BitVec.ofInt 16 m); omega
  have hle' : ((BitVec.ofInt 16 m).toInt : ℚ) ≤ 32767 := by exact_mod_cast hle
  have h4 : micro * ((BitVec.ofInt 16 m).toInt : ℚ) ≤ ((1 : ℤ) : ℚ) / 8 := by
    have h5 : micro * ((BitVec.ofInt 16 m).toInt : ℚ) ≤ micro * 32767 := mul_le_mul_of_nonneg_left hle' hp.le
    have h6 : micro * 32767 ≤ 1 / 10 ^ 6 * (1 + 1 / 2 ^ 53) * 32767 := mul_le_mul_of_nonneg_right b2 (by norm_num)
    have h7 : (1 : ℚ) / 10 ^ 6 * (1 + 1 / 2 ^ 53) * 32767 ≤ ((1 : ℤ) : ℚ) / 8 := by norm_num
    exact (h5.trans h6).trans h7
  have := rnd_le (isDouble_eighths (n := 1) (by norm_num)) h4
  push_cast at this
  linarith

/-- **C82** refuted: with more processes than traces the C version ends in a failed assertion. -/
theorem C82_processes_refuted (bits : Nat → BitVec 32) (sched : List Decomp.Dec → List Decomp.Dec)
    (hs : ∀ l, (sched l).Perm l) (P nt ns : Nat) (hlt : nt < P) (h0 : 0 < ns) (h1 : ns ≤ 32767) (hnt : nt ≤ 2 ^ 30)
    (inc : ℚ) (out : Disk) : createC bits sched P nt ns inc out = .abort := by
  have hsz : taddr ns nt < 2 ^ 63 := by
    have : nt * (240 + 4 * ns) ≤ 2 ^ 30 * (240 + 4 * 32767) := Nat.mul_le_mul hnt (by omega)
    unfold taddr
    omega
  have key : ∀ (l : List Decomp.Dec) (o : Disk), (∀ c ∈ l, c.globalOffset + c.localSize ≤ nt) →
      (∃ c ∈ l, c.localSize = 0) → runBlocks (blockC bits ns ns) l o = .abort := by
    intro l
    induction l with
    | nil => rintro o _ ⟨c, hc, -⟩; simp at hc
    | cons c l ih =>
      intro o hc he
      unfold runBlocks
      rcases Nat.eq_zero_or_pos c.localSize with h | h
      · rw [show c = ⟨c.globalOffset, 0⟩ by rw [← h], blockC_empty]; rfl
      · obtain ⟨o1, e1, -⟩ := blockC_spec bits h0 hsz hnt c h (hc c (by simp)) o
        rw [e1, Res.ok_bind]
        refine ih o1 (fun x hx => hc x (by simp [hx])) ?_
        obtain ⟨x, hx, hz⟩ := he
        rcases List.mem_cons.1 hx with rfl | hx
        · omega
        · exact ⟨x, hx, hz⟩
  rw [run_createC bits sched (by omega) h1 hnt, key _ _ (fun c hc => decs_le (by omega) c ((hs _).mem_iff.1 hc))
    ⟨⟨Decomp.off nt P (P - 1), Decomp.sz nt P (P - 1)⟩, (hs _).mem_iff.2
      (List.mem_map.2 ⟨P - 1, List.mem_range.2 (by omega), rfl⟩), ?_⟩]
  · rfl
  · dsimp only
    unfold Decomp.sz
    rw [Nat.div_eq_of_lt hlt, Nat.mod_eq_of_lt hlt, if_neg (by omega)]

/-- **C82** refuted: in the C++ version the inline of trace `2^24 - 2399` is that of the trace before it. -/
theorem C82_lines_refuted (bits : Nat → BitVec 32) (sched : List (Decomp.Dec × Bool) → List (Decomp.Dec × Bool))
    (hs : ∀ l, (sched l).Perm l) (P nt ns : Nat) (hP : 0 < P) (h0 : 0 < ns) (h1 : ns ≤ 32767) (hnt : nt ≤ 2 ^ 30)
    (hlt : 2 ^ 24 - 2399 < nt) (inc : ℚ) (m : ℤ) (hm0 : 1 ≤ m) (hm1 : m ≤ 32767) (hinc : |inc * 10 ^ 6 - m| ≤ 1 / 4) (out : Disk) :
    ∃ out', createCC bits sched P nt ns inc out = .ok out' ∧
      be32 out' ns (2 ^ 24 - 2399) 189 = be32 out' ns (2 ^ 24 - 2400) 189 := by
  obtain ⟨i1, i2, i3⟩ := inc_ok hm0 hm1 hinc
  obtain ⟨o, e1, -, -, e4⟩ := createCC_spec bits sched hs hP h0 h1 hnt i1 (by omega) (by omega) i2 out
  refine ⟨o, e1, ?_⟩
  have a := (e4 (2 ^ 24 - 2399) hlt).inline
  have b := (e4 (2 ^ 24 - 2400) (by omega)).inline
  rw [a, b]
  have h1 : single (2400 + single (2 ^ 24 - 2399)) = single (2400 + single (2 ^ 24 - 2400)) := by decide +kernel
  rw [h1]

/-- **C82** refuted: in both versions trace `2^24 + 1` has the coordinates of the trace before it. -/
theorem C82_coords_refuted (bits : Nat → BitVec 32) (sched : List Decomp.Dec → List Decomp.Dec)
    (sched' : List (Decomp.Dec × Bool) → List (Decomp.Dec × Bool))
    (hs : ∀ l, (sched l).Perm l) (hs' : ∀ l, (sched' l).Perm l) (P nt ns : Nat) (hP : 0 < P) (h0 : 0 < ns) (h1 : ns ≤ 32767)
    (hle : P ≤ nt) (hnt : nt ≤ 2 ^ 30) (hlt : 2 ^ 24 + 1 < nt) (inc : ℚ) (m : ℤ) (hm0 : 1 ≤ m) (hm1 : m ≤ 32767)
    (hinc : |inc * 10 ^ 6 - m| ≤ 1 / 4) (out : Disk) :
    ∃ o o', createC bits sched P nt ns inc out = .ok o ∧ createCC bits sched' P nt ns inc out = .ok o' ∧
      ∀ d ∈ [o, o'], ∀ loc ∈ place,
        unit (be16 d ns (2 ^ 24 + 1) 71) * (be32 d ns (2 ^ 24 + 1) loc).toInt =
          unit (be16 d ns (2 ^ 24) 71) * (be32 d ns (2 ^ 24) loc).toInt := by
  obtain ⟨i1, i2, i3⟩ := inc_ok hm0 hm1 hinc
  obtain ⟨o, e1, -, -, e4⟩ := createC_spec bits sched hs hP hle h0 h1 hnt i1 (by omega) (by omega) i2 out
  obtain ⟨o', e1', -, -, e4'⟩ := createCC_spec bits sched' hs' hP h0 h1 hnt i1 (by omega) (by omega) i2 out
  have hsame : single (2 ^ 24 + 1) = single (2 ^ 24) := by decide +kernel
  have hloc : ∀ loc ∈ place, ∃ q ∈ [(73, 1600), (77, 2400), (81, 100000), (85, 3000000), (181, 10000), (185, 4000)], q.1 = loc := by
    decide +kernel
  have key : ∀ (d : Disk) (a b a' b' : Nat), Made bits ns (2 ^ 24 + 1) a b (single (2 ^ 24 + 1)) d →
      Made bits ns (2 ^ 24) a' b' (single (2 ^ 24)) d → ∀ loc ∈ place,
        unit (be16 d ns (2 ^ 24 + 1) 71) * (be32 d ns (2 ^ 24 + 1) loc).toInt =
          unit (be16 d ns (2 ^ 24) 71) * (be32 d ns (2 ^ 24) loc).toInt := by
    intro d a b a' b' k1 k2 loc hl
    obtain ⟨q, hq, rfl⟩ := hloc loc hl
    rw [k1.coords q hq, k2.coords q hq, hsame]
  refine ⟨o, o', e1, e1', ?_⟩
  intro d hd
  simp only [List.mem_cons, List.not_mem_nil, or_false] at hd
  rcases hd with rfl | rfl
  · exact key _ _ _ _ _ (e4 _ hlt) (e4 _ (by omega))
  · exact key _ _ _ _ _ (e4' _ hlt) (e4' _ (by omega))

/-- **C82** refuted: `example1` asks for an interval of 4.0, in seconds, by its comment in microseconds; either version
records 2304 microseconds. -/
theorem C82_example1_refuted (bits : Nat → BitVec 32) (sched : List Decomp.Dec → List Decomp.Dec)
    (sched' : List (Decomp.Dec × Bool) → List (Decomp.Dec × Bool))
    (hs : ∀ l, (sched l).Perm l) (hs' : ∀ l, (sched' l).Perm l) (P : Nat) (hP : 0 < P) (hle : P ≤ 40000) (out : Disk) :
    ∃ o o', example1C bits sched P out = .ok o ∧ example1CC bits sched' P out = .ok o' ∧
      ∀ d ∈ [o, o'], openRead d = .ok ⟨1000, 40000, rnd (micro * 2304), 5#16, testText ++ List.replicate 3190 0⟩ ∧
        ∀ k, k < 40000 → Made bits 1000 k (2400 + k) (1600 + k) k d := by
  have hinc : (2 : ℚ) ^ (-1022 : ℤ) ≤ |4| := by
    have h2 : (2 : ℚ) ^ (-1022 : ℤ) ≤ 2 ^ (0 : ℤ) := zpow_le_zpow_right₀ (by norm_num) (by norm_num)
    rw [zpow_zero] at h2
    exact h2.trans (by norm_num)
  have hm : lround (rnd (4 / micro)) = 4000000 := by
    have hx : (4 : ℚ) / micro = 4 * 2 ^ 72 / 4722366482869645 := by
      rw [micro_eq, zpow_neg, div_mul_eq_div_div]
      norm_num
    have h1 : (2 : ℚ) ^ (-1022 : ℤ) ≤ |4 / micro| := by
      rw [hx]
      refine hinc.trans ?_
      norm_num
    have h2 := rnd_err h1
    apply lround_eq
    rw [hx] at h2 ⊢
    rw [abs_le] at h2
    rw [abs_lt]
    norm_num at h2 ⊢
    constructor <;> linarith [h2.1, h2.2]
  have hbv : (BitVec.ofInt 16 4000000).toInt = 2304 := by decide
  obtain ⟨o, e1, -, e3, e4⟩ := createC_spec bits sched hs hP hle (ns := 1000) (by norm_num) (by norm_num) (by norm_num) hinc
    (by norm_num) (by norm_num) hm out
  obtain ⟨o', e1', -, e3', e4'⟩ := createCC_spec bits sched' hs' hP (ns := 1000) (nt := 40000) (by norm_num) (by norm_num)
    (by norm_num) hinc (by norm_num) (by norm_num) hm out
  rw [hbv] at e3 e3'
  refine ⟨o, o', e1, e1', ?_⟩
  intro d hd
  simp only [List.mem_cons, List.not_mem_nil, or_false] at hd
  rcases hd with rfl | rfl
  · refine ⟨by rw [e3]; norm_num, fun k hk => ?_⟩
    have := e4 k hk
    rwa [single_small (by omega)] at this
  · refine ⟨by rw [e3']; norm_num, fun k hk => ?_⟩
    have := e4' k hk
    rwa [single_small (n := k) (by omega), single_small (by omega), single_small (by omega)] at this

/-! ### Cases -/

/-- The hypotheses of `C82_create_partial`: three traces on five processes, in reverse order, one millisecond. -/
example : ∃ o, createCC (fun n => BitVec.ofNat 32 n) List.reverse 5 3 2 (1 / 1000) ⟨0, fun _ => 7#8⟩ = .ok o ∧
    be32 o 2 2 189 = 2402#32 ∧ dsamp o 2 2 1 = 5#32 := by
  obtain ⟨o, e1, -, -, e4⟩ := C82_create_partial (fun n => BitVec.ofNat 32 n) List.reverse (fun l => List.reverse_perm l) 5 3 2
    (by norm_num) (by norm_num) (by norm_num) (by norm_num) (1 / 1000) 1000 (by norm_num) (by norm_num)
    (by rw [abs_le]; norm_num) ⟨0, fun _ => 7#8⟩
  exact ⟨o, e1, (e4 2 (by norm_num)).inline, (e4 2 (by norm_num)).samples 1 (by norm_num)⟩

/-- The hypotheses of `C82_ccreate_partial`: three traces on two processes. -/
example : ∃ o, createC (fun n => BitVec.ofNat 32 n) List.reverse 2 3 2 (1 / 1000) ⟨0, fun _ => 7#8⟩ = .ok o ∧
    be32 o 2 2 193 = 1602#32 ∧ recByte o 2 2 0 = 0#8 := by
  obtain ⟨o, e1, -, -, e4⟩ := C82_ccreate_partial (fun n => BitVec.ofNat 32 n) List.reverse (fun l => List.reverse_perm l) 2 3 2
    (by norm_num) (by norm_num) (by norm_num) (by norm_num) (by norm_num) (1 / 1000) 1000 (by norm_num) (by norm_num)
    (by rw [abs_le]; norm_num) ⟨0, fun _ => 7#8⟩
  exact ⟨o, e1, (e4 2 (by norm_num)).crossline, (e4 2 (by norm_num)).rest 0 (by norm_num) (by decide) (by decide)⟩

/-- The hypotheses of `C82_interval_refuted` and `C82_processes_refuted`: two seconds, two traces on two and on three processes. -/
example : (∃ o i, createC (fun n => BitVec.ofNat 32 n) id 2 2 2 ((2 : Nat) : ℚ) ⟨0, fun _ => 7#8⟩ = .ok o ∧ openRead o = .ok i ∧
      i.inc < 2) ∧
    createC (fun n => BitVec.ofNat 32 n) id 3 2 2 2 ⟨0, fun _ => 7#8⟩ = .abort := by
  obtain ⟨o, i, e1, e2, -, -, e3⟩ := C82_interval_refuted (fun n => BitVec.ofNat 32 n) id (fun l => List.Perm.refl l) 2 2 2
    (by norm_num) (by norm_num) (by norm_num) (by norm_num) (by norm_num) 2 (by norm_num) (by norm_num) ⟨0, fun _ => 7#8⟩
  refine ⟨⟨o, i, e1, e2, by exact_mod_cast e3⟩, ?_⟩
  exact C82_processes_refuted _ id (fun l => List.Perm.refl l) 3 2 2 (by norm_num) (by norm_num) (by norm_num) (by norm_num) 2 _

/-- The hypotheses of `C82_lines_refuted` and `C82_coords_refuted`: `2^24 + 2` traces of one sample on four processes. -/
example : (∃ o, createCC (fun _ => 0#32) id 4 (2 ^ 24 + 2) 1 (1 / 1000) ⟨0, fun _ => 0#8⟩ = .ok o) ∧
    ∃ o, createC (fun _ => 0#32) id 4 (2 ^ 24 + 2) 1 (1 / 1000) ⟨0, fun _ => 0#8⟩ = .ok o := by
  obtain ⟨o, e, -⟩ := C82_lines_refuted (fun _ => 0#32) id (fun l => List.Perm.refl l) 4 (2 ^ 24 + 2) 1 (by norm_num) (by norm_num)
    (by norm_num) (by norm_num) (by norm_num) (1 / 1000) 1000 (by norm_num) (by norm_num) (by rw [abs_le]; norm_num) ⟨0, fun _ => 0#8⟩
  obtain ⟨o', -, e', -⟩ := C82_coords_refuted (fun _ => 0#32) id id (fun l => List.Perm.refl l) (fun l => List.Perm.refl l) 4
    (2 ^ 24 + 2) 1 (by norm_num) (by norm_num) (by norm_num) (by norm_num) (by norm_num) (by norm_num) (1 / 1000) 1000
    (by norm_num) (by norm_num) (by rw [abs_le]; norm_num) ⟨0, fun _ => 0#8⟩
  exact ⟨⟨o, e⟩, ⟨o', e'⟩⟩

/-- The hypotheses of `C82_maincc_partial`, `C82_main_refuted` and `C82_example1_refuted`: 16 processes, in any order. -/
example : (∃ o, mainCC (fun _ => 0#32) List.reverse 16 ⟨0, fun _ => 0#8⟩ = .ok o) ∧
    (∃ o, mainC (fun _ => 0#32) List.reverse 16 ⟨0, fun _ => 0#8⟩ = .ok o ∧ o.byte 3221 = 0#8) ∧
    ∃ o, example1C (fun _ => 0#32) List.reverse 16 ⟨0, fun _ => 0#8⟩ = .ok o := by
  obtain ⟨o, e, -⟩ := C82_maincc_partial (fun _ => 0#32) List.reverse (fun l => List.reverse_perm l) 16 (by norm_num) ⟨0, fun _ => 0#8⟩
  obtain ⟨o', e', h, -⟩ := C82_main_refuted (fun _ => 0#32) List.reverse (fun l => List.reverse_perm l) 16 (by norm_num) (by norm_num)
    ⟨0, fun _ => 0#8⟩
  obtain ⟨o'', -, e'', -⟩ := C82_example1_refuted (fun _ => 0#32) List.reverse List.reverse (fun l => List.reverse_perm l)
    (fun l => List.reverse_perm l) 16 (by norm_num) (by norm_num) ⟨0, fun _ => 0#8⟩
  exact ⟨⟨o, e⟩, ⟨o', e', h 3221 (by norm_num)⟩, ⟨o'', e''⟩⟩

end Verif.CCreate
