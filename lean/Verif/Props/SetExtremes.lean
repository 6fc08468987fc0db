import Verif.Flow.SetExtremes
import Verif.Props.MinMaxTool
import Verif.Props.SortTool
import Verif.Props.Rule

/-!
C102: smallest and largest of two header items over the files of a set.
-/

namespace Verif.Extremes
open Verif.Rules Verif.Params Verif.Files Verif.Ops Verif.Decomp Verif.Endian Verif.Layout Verif.Scalar Verif.Flow Verif.FP

/-- What the bytes of a field say: a whole number of four or two bytes, or a number with a scalar. -/
def fieldVal (d : Disk) (ns t : Nat) : Rules.Val → ℚ
  | (.long, loc, _) => (be32 d ns t loc).toInt
  | (.short, loc, _) => (be16 d ns t loc).toInt
  | (.float, loc, scal) => decode (be16 d ns t scal) (be32 d ns t loc)
  | _ => 0

/-- Item `m` of the header of trace `t`, where the standard has it. -/
def itemVal (d : Disk) (ns m t : Nat) : ℚ :=
  match documented m with
  | some v => fieldVal d ns t v
  | none => 0

/-- The items of the trace header (`Meta.h`, from `tnl` to `TraceUnit`). -/
def HeaderItem (m : Nat) : Prop := 3 ≤ m ∧ m < 30

/-- The items of the default rule: coordinates, line numbers, offset, trace number. -/
def DefaultItem (m : Nat) : Prop := 20 ≤ m ∧ m ≤ 27 ∨ m = 14 ∨ m = 5

/-- A file of the set, and what is found on opening it. -/
structure Readable (d : Disk) (i : Info) : Prop where
  opens : openRead d = .ok i
  size : d.size < 2 ^ 63
  few : i.ns ≤ 32767

/-- What is asked of the rule of a set: made by calls of the library for the whole header, every item where the library
has it, with the trace number. -/
structure SetRule (r : Rule) : Prop where
  reach : Reachable r
  whole : Whole r
  std : ∀ m v, Rules.abs r m = some v → ((m = 1 ∨ m = 2) ∧ v.1 = .index) ∨ Rules.known m = some v
  num : Rules.abs r ltn = some (.index, 0, 0)

theorem SetRule.known {r : Rule} (h : SetRule r) : KnownOnly r := fun m v hv =>
  (h.std m v hv).imp And.right id

theorem SetRule.ok {r : Rule} (h : SetRule r) (n : Nat) : RdOk (Params.mk (0 : ℚ) r n) := by
  obtain ⟨e, he, hev⟩ := entry_of_abs h.num
  exact ⟨mk_wf 0 h.reach.inv n, C12_known_layout r h.reach.inv h.known, h.whole.1, h.whole.2.1, e, he,
    congrArg Prod.fst hev⟩

theorem Readable.addr {d : Disk} {i : Info} (h : Readable d i) :
    taddr i.ns i.nt < 2 ^ 63 ∧ (0 < i.nt → taddr i.ns i.nt ≤ d.size) := by
  have ho := h.opens
  unfold openRead at ho
  split at ho
  · rename_i hsz
    obtain ⟨b, -, ho⟩ := of_bind ho
    obtain ⟨ns, -, ho⟩ := of_bind ho
    obtain ⟨nt, hnt, ho⟩ := of_bind ho
    obtain ⟨iv, -, ho⟩ := of_bind ho
    obtain ⟨ty, -, ho⟩ := of_bind ho
    rw [Res.ok.injEq] at ho
    have hf := h.few
    subst ho
    have := getNt_le hnt hsz h.size hf
    exact ⟨Nat.lt_of_le_of_lt this h.size, fun _ => this⟩
  · rw [Res.ok.injEq] at ho
    subst ho
    exact ⟨by show taddr 0 0 < _; decide, fun h => absurd h (Nat.lt_irrefl 0)⟩

/-! ## The numbers -/

theorem toInt16 (v : BitVec 16) : -2 ^ 31 ≤ v.toInt ∧ v.toInt < 2 ^ 31 := by
  have := toInt_bounds v
  omega

theorem toInt32 (v : BitVec 32) : -2 ^ 31 ≤ v.toInt ∧ v.toInt < 2 ^ 31 := by
  have h1 := BitVec.le_toInt v
  have h2 := BitVec.toInt_lt (x := v)
  omega

theorem rnd_small {n : ℤ} (h : -2 ^ 31 ≤ n ∧ n < 2 ^ 31) : rnd n = n :=
  rnd_int (by rw [abs_lt]; omega)

theorem double_pow {k : ℤ} (h : -1074 ≤ k) : IsDouble ((2 : ℚ) ^ k) :=
  ⟨1, k, by norm_num, by omega, by simp⟩

theorem decode_range (s : BitVec 16) (n : BitVec 32) :
    decode s n ≤ 2 ^ 47 ∧ (0 < decode s n → 1 / 2 ^ 16 ≤ decode s n) := by
  have hp := parse_pos s
  have he := parse_err s
  obtain ⟨hu1, hu2⟩ := unit_bounds s
  obtain ⟨hn1, hn2⟩ := toInt32 n
  have hup : parseScalar s ≤ 2 ^ 16 := by
    rw [abs_le] at he
    have : unit s / 2 ^ 53 ≤ 2 ^ 15 / 2 ^ 53 := by gcongr
    norm_num at this ⊢
    linarith [he.2]
  have hlo : 1 / 2 ^ 16 ≤ parseScalar s := by
    rw [abs_le] at he
    have : unit s / 2 ^ 53 ≤ unit s / 2 := by
      apply div_le_div_of_nonneg_left (le_of_lt (unit_pos s)) <;> norm_num
    norm_num at hu1 ⊢
    linarith [he.1]
  unfold decode
  constructor
  · have d47 : IsDouble ((2 : ℚ) ^ 47) := by simpa using double_pow (k := 47) (by omega)
    apply rnd_le d47
    have h1 : (n.toInt : ℚ) ≤ 2 ^ 31 := by exact_mod_cast le_of_lt hn2
    calc parseScalar s * n.toInt ≤ parseScalar s * 2 ^ 31 := by gcongr
      _ ≤ 2 ^ 16 * 2 ^ 31 := by gcongr
      _ = 2 ^ 47 := by norm_num
  · intro hpos
    have hn : 0 < n.toInt := by
      by_contra hc
      have h0 : IsDouble (0 : ℚ) := by simpa using isDouble_int (n := 0) (by norm_num)
      have : parseScalar s * n.toInt ≤ 0 := by
        apply mul_nonpos_of_nonneg_of_nonpos (le_of_lt hp)
        exact_mod_cast not_lt.1 hc
      exact absurd (rnd_le h0 this) (not_le.2 hpos)
    have d16 : IsDouble ((1 : ℚ) / 2 ^ 16) := by
      have := double_pow (k := -16) (by omega)
      norm_num at this ⊢
      exact this
    apply rnd_ge d16
    have h1 : (1 : ℚ) ≤ n.toInt := by exact_mod_cast hn
    calc (1 : ℚ) / 2 ^ 16 ≤ parseScalar s := hlo
      _ = parseScalar s * 1 := by ring
      _ ≤ parseScalar s * n.toInt := by gcongr

theorem item_range (d : Disk) (ns m t : Nat) :
    itemVal d ns m t ≤ 2 ^ 47 ∧ (0 < itemVal d ns m t → 1 / 2 ^ 16 ≤ itemVal d ns m t) := by
  have hint : ∀ n : ℤ, (-2 ^ 31 ≤ n ∧ n < 2 ^ 31) → (n : ℚ) ≤ 2 ^ 47 ∧ (0 < (n : ℚ) → (1 : ℚ) / 2 ^ 16 ≤ n) := by
    intro n hn
    constructor
    · have : n ≤ 2 ^ 47 := by omega
      exact_mod_cast this
    · intro h
      have : (1 : ℚ) ≤ n := by exact_mod_cast (show 0 < n by exact_mod_cast h)
      norm_num
      linarith
  unfold itemVal
  cases documented m with
  | none => norm_num
  | some v =>
    obtain ⟨k, loc, scal⟩ := v
    cases k with
    | long => exact hint _ (toInt32 _)
    | short => exact hint _ (toInt16 _)
    | float => exact decode_range _ _
    | index => simp [fieldVal]
    | copy => simp [fieldVal]

/-! ## The rule -/

theorem header_known {m : Nat} (h : HeaderItem m) : ∃ v, known m = some v ∧ Valued v.1 := by
  have : ∀ m ∈ List.range 30, 3 ≤ m → ∃ v, known m = some v ∧ (v.1 = .long ∨ v.1 = .short ∨ v.1 = .float) := by
    intro m hm h
    have := (by decide +kernel : ∀ m ∈ List.range 30, 3 ≤ m → (known m).any (fun v => decide (v.1 = .long ∨ v.1 = .short ∨ v.1 = .float)) = true) m hm h
    cases hk : known m with
    | none => rw [hk] at this; cases this
    | some v => rw [hk] at this; exact ⟨v, rfl, by simpa using this⟩
  obtain ⟨v, h1, h2⟩ := this m (List.mem_range.2 h.2) h.1
  refine ⟨v, h1, ?_⟩
  unfold Valued
  tauto

theorem SetRule.add {r : Rule} (h : SetRule r) (m : Nat) : ∃ r' b, addRule r m = .ok (r', b) ∧ SetRule r' ∧
    (b = true ↔ Rules.abs r m = none ∧ Rules.known m ≠ none) ∧
    (∀ m', m' ≠ m → Rules.abs r' m' = Rules.abs r m') ∧
    Rules.abs r' m = (Rules.abs r m).or (Rules.known m) := by
  obtain ⟨r', b, h1, h2, h3, h4, h5⟩ := addRule_spec h.reach.inv m
  have hstep : step r (.addRule m) = .ok (r', .bool b) := by
    simp only [step, h1, Res.ok_bind]
  have hoth : ∀ m', m' ≠ m → Rules.abs r' m' = Rules.abs r m' := by
    intro m' hne
    rw [h5]
    split
    · split
      · exact if_neg hne
      · rfl
    · rfl
  have hat : Rules.abs r' m = (Rules.abs r m).or (Rules.known m) := by
    rw [h5]
    split
    · rename_i ha
      rw [ha]
      split
      · rename_i v hv; simp [aset, hv]
      · rename_i hv; rw [ha, hv]; rfl
    · rename_i ha
      obtain ⟨v, hv⟩ := Option.ne_none_iff_exists'.1 ha
      rw [hv]; rfl
  refine ⟨r', b, h1, ⟨Reach.step h.reach (op := .addRule m) trivial hstep trivial, h.whole.step hstep, ?_, ?_⟩, h4, hoth, hat⟩
  · intro m' v hv
    by_cases hne : m' = m
    · subst hne
      rw [hat] at hv
      cases ha : Rules.abs r m' with
      | none => rw [ha] at hv; exact Or.inr hv
      | some w => rw [ha] at hv; cases hv; exact h.std _ _ ha
    · rw [hoth _ hne] at hv
      exact h.std _ _ hv
  · by_cases hne : ltn = m
    · have hn := h.num
      rw [hne] at hn ⊢
      rw [hat, hn]; rfl
    · rw [hoth _ hne]; exact h.num

theorem SetRule.rm {r : Rule} (h : SetRule r) (m : Nat) (hm : m ≠ ltn) : ∃ r', rmRule r m = .ok r' ∧ SetRule r' ∧
    Rules.abs r' = aset (Rules.abs r) m none := by
  obtain ⟨r', h1, h2, h3, -⟩ := rmRule_spec h.reach.inv m
  have hstep : step r (.rmRule m) = .ok (r', .unit) := by
    simp only [step, h1, Res.ok_bind]
  refine ⟨r', h1, ⟨Reach.step h.reach (op := .rmRule m) trivial hstep trivial, h.whole.step hstep, ?_, ?_⟩, h3⟩
  · intro m' v hv
    rw [h3] at hv
    simp only [aset] at hv
    split at hv
    · cases hv
    · exact h.std _ _ hv
  · rw [h3]
    exact (if_neg (Ne.symm hm)).trans h.num

/-! ## Reading -/

/-- What an object read for a trace says of an item of the header. -/
theorem item_read {d : Disk} {ns : Nat} {w : Where} {n i : Nat} {q q' : Param ℚ}
    (h : RowsRead dbl d ns w n 0 q q') (hn : n ≤ q.sz) (hi : i < n) {m : Nat} (hm : HeaderItem m)
    (ha : Rules.abs q.rule m = known m) : getPrm asDouble i m q' = .ok (itemVal d ns m (w.trace i)) := by
  obtain ⟨v, hv, hval⟩ := header_known hm
  obtain ⟨e, he, hev⟩ := entry_of_abs (ha.trans hv)
  have hdoc : documented m = some v := by rw [← known_documented]; exact hv
  rw [getPrm_item asDouble q' h.wf (by rw [h.rule]; exact he) (by rw [h.size]; omega)]
  have hdec := h.dec i hi m e he
  rw [Nat.add_zero, Nat.zero_add, Nat.zero_add] at hdec
  rw [h.rule] at hdec
  unfold itemVal item
  rw [hdoc, ← hev, h.rule]
  have hk : e.kind = .long ∨ e.kind = .short ∨ e.kind = .float := by
    rw [← hev] at hval
    unfold Valued at hval
    have : (entryVal e).1 = e.kind := rfl
    rw [this] at hval
    tauto
  rcases hk with hk | hk | hk
  · have := hdec.2.1 hk
    simp only [hk, ofItem, entryVal, fieldVal]
    rw [Nat.mul_comm, this]
    show Res.ok (rnd (BitVec.toInt _)) = _
    rw [BitVec.toInt_signExtend_of_le (by omega), rnd_small (toInt32 _)]
    rfl
  · have := hdec.1 hk
    simp only [hk, ofItem, entryVal, fieldVal]
    rw [Nat.mul_comm, this]
    show Res.ok (rnd (BitVec.toInt _)) = _
    rw [rnd_small (toInt16 _)]
    rfl
  · have := hdec.2.2 hk
    simp only [hk, ofItem, entryVal, fieldVal]
    rw [Nat.mul_comm, this]
    rfl

theorem setShare_spec {P : Nat} (hP : 0 < P) {d : Disk} {i : Info} (hd : Readable d i) {r : Rule} (hr : SetRule r) {k : Nat}
    (hk : k < P) : ∃ p, setShare P i.ns i.nt r d k = .ok (sz i.nt P k, p) ∧ WF p ∧ p.rule = r ∧ p.sz = sz i.nt P k ∧
      ∀ j, j < sz i.nt P k → ∀ m, HeaderItem m → Rules.abs r m = known m →
        getPrm asDouble j m p = .ok (itemVal d i.ns m (off i.nt P k + j)) := by
  obtain ⟨h1, h2⟩ := hd.addr
  have hn : i.nt < 2 ^ 63 := by
    unfold taddr at h1
    have : i.nt * 1 ≤ i.nt * (240 + 4 * i.ns) := Nat.mul_le_mul_left _ (by omega)
    omega
  have hle := off_le i.nt P (k + 1) hP hk
  rw [off_succ] at hle
  have hl : ∀ x ∈ List.range' (off i.nt P k) (sz i.nt P k), x < i.nt := by
    intro x hx
    rw [List.mem_range'_1] at hx
    omega
  have hpw : (List.range' (off i.nt P k) (sz i.nt P k)).Pairwise (· < ·) := List.pairwise_lt_range'
  have hlen : (List.range' (off i.nt P k) (sz i.nt P k)).length = sz i.nt P k := List.length_range'
  have hsm := small_list (l := List.range' (off i.nt P k) (sz i.nt P k)) h1 hl hpw
  obtain ⟨t', p', e1, -, -, -, e5⟩ := read_spec dbl asInt (fun _ => rfl) i.ns
    (.list (List.range' (off i.nt P k) (sz i.nt P k))) (List.range' (off i.nt P k) (sz i.nt P k)).length none
    (some (Params.mk 0 r (List.range' (off i.nt P k) (sz i.nt P k)).length)) 0 d i.nt hsm
    (fun i j h1 h2 => Nat.le_of_lt (inc_of_lt hpw i j h1 h2))
    (fun j hj => Nat.le_trans (taddr_le (hsm.lt j hj)) (h2 (Nat.lt_of_le_of_lt (Nat.zero_le _) (hsm.lt j hj)))) (by simp)
    (by rintro q h; cases h; exact ⟨hr.ok _, Nat.le_refl _⟩) (by simp)
  obtain ⟨q, rfl, g⟩ := e5 _ rfl
  refine ⟨q, ?_, g.wf, g.rule, by rw [g.size]; exact hlen, ?_⟩
  · unfold setShare
    rw [blockDecomposition_eq hP hk (by omega), Res.ok_bind]
    unfold readList
    simp only
    rw [e1, Res.ok_bind, hlen]
  · intro j hj m hm ha
    have := item_read g (Nat.le_refl _) (by rw [hlen]; exact hj) hm ha
    rw [this]
    show Res.ok (itemVal d i.ns m ((List.range' (off i.nt P k) (sz i.nt P k))[j]?.getD 0)) = _
    rw [List.getElem?_eq_getElem (by rw [hlen]; exact hj), List.getElem_range', Option.getD_some, Nat.one_mul]

theorem numbered_eq {P nt : Nat} (hP : 0 < P) (hn : nt < 2 ^ 63) (g : Nat → Param ℚ) : ∀ (n k : Nat), k + n ≤ P →
    numbered (off nt P k) ((List.range' k n).map fun r => (sz nt P r, g r)) =
      (List.range' k n).map fun r => (off nt P r, sz nt P r, g r) := by
  intro n
  induction n with
  | zero => intro k _; rfl
  | succ n ih =>
    intro k hk
    rw [List.range'_succ, List.map_cons, List.map_cons]
    unfold numbered
    have h1 := off_le nt P (k + 1) hP (by omega)
    rw [off_succ] at h1
    rw [add64_eq (by simp only; omega), ← off_succ, ih (k + 1) (by omega)]

/-- The items of the traces of a file, process by process. -/
def partsOf (P nt : Nat) (X Y : Nat → ℚ) : List (Nat × List (ℚ × ℚ)) :=
  (List.range P).map fun r => (off nt P r, (List.range' 0 (sz nt P r)).map fun j => (X (off nt P r + j), Y (off nt P r + j)))

/-- What the processes hold of a file. -/
theorem file_held {P : Nat} (hP : 0 < P) {d : Disk} {i : Info} (hd : Readable d i) {r : Rule} (hr : SetRule r) :
    ∃ g : Nat → Param ℚ, collect (setShare P i.ns i.nt r d) (List.range P) =
        .ok ((List.range P).map fun k => (sz i.nt P k, g k)) ∧
      numbered 0 ((List.range P).map fun k => (sz i.nt P k, g k)) =
        ((List.range P).map fun k => (off i.nt P k, sz i.nt P k, g k)) ∧
      ∀ k, k < P → WF (g k) ∧ (g k).rule = r ∧ (g k).sz = sz i.nt P k ∧
        ∀ j, j < sz i.nt P k → ∀ m, HeaderItem m → Rules.abs r m = known m →
          getPrm asDouble j m (g k) = .ok (itemVal d i.ns m (off i.nt P k + j)) := by
  have : ∀ k, ∃ p, k < P → setShare P i.ns i.nt r d k = .ok (sz i.nt P k, p) ∧ WF p ∧ p.rule = r ∧ p.sz = sz i.nt P k ∧
      ∀ j, j < sz i.nt P k → ∀ m, HeaderItem m → Rules.abs r m = known m →
        getPrm asDouble j m p = .ok (itemVal d i.ns m (off i.nt P k + j)) := by
    intro k
    by_cases hk : k < P
    · obtain ⟨p, hp⟩ := setShare_spec hP hd hr hk
      exact ⟨p, fun _ => hp⟩
    · exact ⟨Params.mk 0 r 0, fun h => absurd h hk⟩
  choose g hg using this
  obtain ⟨h1, -⟩ := hd.addr
  have hn : i.nt < 2 ^ 63 := by
    unfold taddr at h1
    have : i.nt * 1 ≤ i.nt * (240 + 4 * i.ns) := Nat.mul_le_mul_left _ (by omega)
    omega
  refine ⟨g, collect_ok fun k hk => (hg k (List.mem_range.1 hk)).1, ?_, fun k hk => (hg k hk).2⟩
  have := numbered_eq hP hn g P 0 (by omega)
  rw [off_zero] at this
  rw [List.range_eq_range']
  exact this

theorem raw_len {P : Nat} (hP : 0 < P) {d : Disk} {i : Info} (hd : Readable d i) {k : Nat} (hk : k < P) {p : Param ℚ} (hp : WF p)
    (hs : p.sz = sz i.nt P k) (hc : p.rule.cnt .copy ≠ 0) : p.c.len ≤ 2 ^ 64 := by
  obtain ⟨ha, -⟩ := hd.addr
  have hle := sz_le i.nt P k hP hk
  have hl := hp.c
  rw [if_pos hc, hs] at hl
  have : i.nt * 240 ≤ i.nt * (240 + 4 * i.ns) := Nat.mul_le_mul_left _ (by omega)
  unfold taddr at ha
  rw [hl]
  have : sz i.nt P k * 240 ≤ i.nt * 240 := Nat.mul_le_mul_right _ hle
  omega

theorem file_holding {P : Nat} (hP : 0 < P) {d : Disk} {i : Info} (hd : Readable d i) {r : Rule} (hr : SetRule r) {m1 m2 : Nat}
    (h1 : HeaderItem m1) (h2 : HeaderItem m2) (a1 : Rules.abs r m1 = known m1) (a2 : Rules.abs r m2 = known m2)
    {g : Nat → Param ℚ} (hg : ∀ k, k < P → WF (g k) ∧ (g k).rule = r ∧ (g k).sz = sz i.nt P k ∧
        ∀ j, j < sz i.nt P k → ∀ m, HeaderItem m → Rules.abs r m = known m →
          getPrm asDouble j m (g k) = .ok (itemVal d i.ns m (off i.nt P k + j))) :
    ∀ s ∈ ((List.range P).map fun k => (off i.nt P k, sz i.nt P k, g k)),
      Holding asDouble m1 m2 (itemVal d i.ns m1) (itemVal d i.ns m2) s := by
  intro s hs
  obtain ⟨k, hk, rfl⟩ := List.mem_map.1 hs
  rw [List.mem_range] at hk
  obtain ⟨g1, g2, g3, g4⟩ := hg k hk
  obtain ⟨v1, e1, -⟩ := header_known h1
  obtain ⟨v2, e2, -⟩ := header_known h2
  refine ⟨g1, g3, ?_, by simp only; rw [g2, a1, e1]; simp, by simp only; rw [g2, a2, e2]; simp, fun j hj => ⟨g4 j hj m1 h1 a1, g4 j hj m2 h2 a2⟩⟩
  intro hc
  have hl := raw_len hP hd hk g1 g3 hc
  simp only
  rw [g2]
  exact ⟨C12_known_layout r hr.reach.inv hr.known, hr.whole.1, hr.whole.2.1, hl⟩

/-- The items added and removed again. -/
theorem SetRule.added {r : Rule} (h : SetRule r) {m1 m2 : Nat} (h1 : HeaderItem m1) (h2 : HeaderItem m2) :
    ∃ ra a rb b rc rd, addRule r m1 = .ok (ra, a) ∧ addRule ra m2 = .ok (rb, b) ∧ SetRule rb ∧
      Rules.abs rb m1 = Rules.known m1 ∧ Rules.abs rb m2 = Rules.known m2 ∧
      rmAdded a m1 rb = .ok rc ∧ rmAdded b m2 rc = .ok rd ∧ SetRule rd ∧
      Rules.abs rd = Rules.abs r := by
  have hl : ∀ {m}, HeaderItem m → m ≠ ltn := by
    intro m hm; have := hm.1; unfold ltn; omega
  have hstd : ∀ {s : Rule}, SetRule s → ∀ {m}, HeaderItem m → (Rules.abs s m).or (Rules.known m) = Rules.known m := by
    intro s hs m hm
    cases ha : Rules.abs s m with
    | none => rfl
    | some v =>
      rcases hs.std m v ha with ⟨h', -⟩ | h'
      · have := hm.1; omega
      · rw [h']; rfl
  obtain ⟨ra, a, a1, a2, a3, a4, a5⟩ := h.add m1
  obtain ⟨rb, b, b1, b2, b3, b4, b5⟩ := a2.add m2
  obtain ⟨v1, k1, -⟩ := header_known h1
  obtain ⟨v2, k2, -⟩ := header_known h2
  have hb1 : Rules.abs rb m1 = Rules.known m1 := by
    by_cases hm : m1 = m2
    · subst hm; rw [b5]; exact hstd a2 h1
    · rw [b4 _ hm, a5]; exact hstd h h1
  have hb2 : Rules.abs rb m2 = Rules.known m2 := by rw [b5]; exact hstd a2 h2
  have hc : ∃ rc, rmAdded a m1 rb = .ok rc ∧ SetRule rc ∧
      Rules.abs rc = if a = true then aset (Rules.abs rb) m1 none else Rules.abs rb := by
    cases a with
    | false => exact ⟨rb, rfl, b2, rfl⟩
    | true => obtain ⟨rc, c1, c2, c3⟩ := b2.rm m1 (hl h1); exact ⟨rc, c1, c2, c3⟩
  obtain ⟨rc, c1, c2, c3⟩ := hc
  have hd : ∃ rd, rmAdded b m2 rc = .ok rd ∧ SetRule rd ∧
      Rules.abs rd = if b = true then aset (Rules.abs rc) m2 none else Rules.abs rc := by
    cases b with
    | false => exact ⟨rc, rfl, c2, rfl⟩
    | true => obtain ⟨rd, d1, d2, d3⟩ := c2.rm m2 (hl h2); exact ⟨rd, d1, d2, d3⟩
  obtain ⟨rd, d1, d2, d3⟩ := hd
  refine ⟨ra, a, rb, b, rc, rd, a1, b1, b2, hb1, hb2, c1, d1, d2, ?_⟩
  funext m
  rw [d3]
  have hra : Rules.abs ra m1 = Rules.known m1 := by rw [a5]; exact hstd h h1
  cases hb : b with
  | true =>
    have hn := (b3.1 hb).1
    have hne : m1 ≠ m2 := by rintro rfl; rw [hra, k1] at hn; cases hn
    rw [if_pos rfl]
    by_cases e2 : m = m2
    · subst e2
      rw [← a4 _ (Ne.symm hne), hn]
      exact if_pos rfl
    · refine (if_neg e2).trans ?_
      rw [c3]
      cases ha : a with
      | true =>
        rw [if_pos rfl]
        by_cases e1 : m = m1
        · subst e1; rw [(a3.1 ha).1]; exact if_pos rfl
        · exact (if_neg e1).trans ((b4 _ e2).trans (a4 _ e1))
      | false =>
        rw [if_neg (by decide), b4 _ e2]
        by_cases e1 : m = m1
        · subst e1
          have : Rules.abs r m ≠ none := fun h0 => by
            have := a3.2 ⟨h0, by rw [k1]; simp⟩
            rw [ha] at this; cases this
          obtain ⟨v, hv⟩ := Option.ne_none_iff_exists'.1 this
          rw [a5, hv]; rfl
        · exact a4 _ e1
  | false =>
    rw [if_neg (by decide), c3]
    have hrb : Rules.abs rb m = Rules.abs ra m := by
      by_cases e2 : m = m2
      · subst e2
        have : Rules.abs ra m ≠ none := fun h0 => by
          have := b3.2 ⟨h0, by rw [k2]; simp⟩
          rw [hb] at this; cases this
        obtain ⟨v, hv⟩ := Option.ne_none_iff_exists'.1 this
        rw [b5, hv]; rfl
      · exact b4 _ e2
    cases ha : a with
    | true =>
      rw [if_pos rfl]
      by_cases e1 : m = m1
      · subst e1; rw [(a3.1 ha).1]; exact if_pos rfl
      · exact (if_neg e1).trans (hrb.trans (a4 _ e1))
    | false =>
      rw [if_neg (by decide), hrb]
      by_cases e1 : m = m1
      · subst e1
        have : Rules.abs r m ≠ none := fun h0 => by
          have := a3.2 ⟨h0, by rw [k1]; simp⟩
          rw [ha] at this; cases this
        obtain ⟨v, hv⟩ := Option.ne_none_iff_exists'.1 this
        rw [a5, hv]; rfl
      · exact a4 _ e1

/-! ## The values -/

theorem default_abs {m : Nat} (h : DefaultItem m) : Rules.abs dr m ≠ none := by
  have hm : ∀ m ∈ [20, 21, 22, 23, 24, 25, 26, 27, 14, 5], ∃ q ∈ dr.map, q.1 = m ∧ q.2 ≠ none := by
    unfold dr; decide +kernel
  have hin : m ∈ [20, 21, 22, 23, 24, 25, 26, 27, 14, 5] := by
    unfold DefaultItem at h
    simp only [List.mem_cons, List.not_mem_nil, or_false]
    omega
  obtain ⟨q, h1, h2, h3⟩ := hm m hin
  obtain ⟨e, he⟩ := Option.ne_none_iff_exists'.1 h3
  rw [abs_mem dr_reach.inv (m := m) (e := e) (by rw [← h2, ← he]; exact h1)]
  simp

theorem default_none {m : Nat} (h : HeaderItem m) (hd : ¬ DefaultItem m) : Rules.abs dr m = none := by
  have := (by unfold dr; decide +kernel : ∀ m ∈ List.range 30, 3 ≤ m →
    ¬ (20 ≤ m ∧ m ≤ 27 ∨ m = 14 ∨ m = 5) → Rules.abs dr m = none)
  exact this m (List.mem_range.2 h.2) h.1 hd

theorem filePairs_spec {P : Nat} (hP : 0 < P) {d : Disk} {i : Info} (hd : Readable d i) {r : Rule} (hr : SetRule r) {m1 m2 : Nat}
    (h1 : HeaderItem m1) (h2 : HeaderItem m2) (a1 : Rules.abs r m1 = known m1) (a2 : Rules.abs r m2 = known m2)
    (h0 : P ≤ i.nt ∨ DefaultItem m1 ∧ DefaultItem m2) :
    filePairs P m1 m2 r d i = .ok (partsOf P i.nt (itemVal d i.ns m1) (itemVal d i.ns m2)) := by
  obtain ⟨g, g1, g2, g3⟩ := file_held hP hd hr
  unfold filePairs
  rw [g1, Res.ok_bind, g2, shares_spec dbl asDouble 0 _ (file_holding hP hd hr h1 h2 a1 a2 g3)]
  · rw [List.map_map]; rfl
  · intro s hs hz
    obtain ⟨k, hk, rfl⟩ := List.mem_map.1 hs
    rcases h0 with h0 | h0
    · have : 1 ≤ i.nt / P := (Nat.one_le_div_iff hP).2 h0
      have hz : sz i.nt P k = 0 := hz
      unfold sz at hz
      omega
    · exact ⟨default_abs h0.1, default_abs h0.2⟩

theorem share_of {nt P t : Nat} (hP : 0 < P) (ht : t < nt) : ∃ r, r < P ∧ off nt P r ≤ t ∧ t < off nt P r + sz nt P r := by
  have := Decomp.flatMap_range nt P P
  rw [Decomp.off_last nt P hP] at this
  have hm := List.mem_range.2 ht
  rw [← this] at hm
  obtain ⟨r, h1, h2⟩ := List.mem_flatMap.1 hm
  rw [List.mem_range'_1] at h2
  exact ⟨r, List.mem_range.1 h1, h2.1, h2.2⟩

theorem parts_at {P nt : Nat} (hP : 0 < P) (X Y : Nat → ℚ) {p : Nat × List (ℚ × ℚ)} (hp : p ∈ partsOf P nt X Y) {j : Nat}
    {a : ℚ × ℚ} (ha : p.2[j]? = some a) : p.1 + j < nt ∧ a = (X (p.1 + j), Y (p.1 + j)) := by
  obtain ⟨r, hr, rfl⟩ := List.mem_map.1 hp
  rw [List.mem_range] at hr
  simp only [List.getElem?_map, Option.map_eq_some_iff] at ha
  obtain ⟨k, hk, rfl⟩ := ha
  obtain ⟨hl, hk⟩ := List.getElem?_eq_some_iff.1 hk
  rw [List.length_range'] at hl
  rw [List.getElem_range'] at hk
  have := off_le nt P (r + 1) hP hr
  rw [off_succ] at this
  obtain rfl : k = j := by omega
  exact ⟨by show off nt P r + k < nt; omega, rfl⟩

theorem parts_mem {P nt : Nat} (hP : 0 < P) (X Y : Nat → ℚ) {t : Nat} (ht : t < nt) :
    ∃ p ∈ partsOf P nt X Y, (X t, Y t) ∈ p.2 := by
  obtain ⟨r, h1, h2, h3⟩ := share_of hP ht
  refine ⟨_, List.mem_map.2 ⟨r, List.mem_range.2 h1, rfl⟩, List.mem_map.2 ⟨t - off nt P r, ?_, ?_⟩⟩
  · rw [List.mem_range'_1]; omega
  · rw [show off nt P r + (t - off nt P r) = t by omega]

theorem parts_bound {P nt : Nat} (hP : 0 < P) (hn : nt ≤ 2 ^ 64) (X Y : Nat → ℚ) {p : Nat × List (ℚ × ℚ)}
    (hp : p ∈ partsOf P nt X Y) : p.1 + p.2.length ≤ 2 ^ 64 := by
  obtain ⟨r, hr, rfl⟩ := List.mem_map.1 hp
  rw [List.mem_range] at hr
  have := off_le nt P (r + 1) hP hr
  rw [off_succ] at this
  simp only [List.length_map, List.length_range']
  omega

theorem values_iff {P : Nat} (hP : 0 < P) (ds : List Disk) (nt : Disk → Nat) (X Y : Disk → Nat → ℚ) (e : ℚ × ℚ → ℚ)
    (Z : Disk → Nat → ℚ) (he : ∀ d t, e (X d t, Y d t) = Z d t) (v : ℚ) :
    v ∈ valuesOf e (ds.map fun d => partsOf P (nt d) (X d) (Y d)) ↔ ∃ d ∈ ds, ∃ t, t < nt d ∧ v = Z d t := by
  unfold valuesOf
  constructor
  · intro h
    obtain ⟨f, hf, h⟩ := List.mem_flatMap.1 h
    obtain ⟨d, hd, rfl⟩ := List.mem_map.1 hf
    obtain ⟨p, hp, h⟩ := List.mem_flatMap.1 h
    obtain ⟨a, ha, rfl⟩ := List.mem_map.1 h
    obtain ⟨j, hj⟩ := List.mem_iff_getElem?.1 ha
    obtain ⟨k1, k2⟩ := parts_at hP (X d) (Y d) hp hj
    exact ⟨d, hd, _, k1, by rw [k2, he]⟩
  · rintro ⟨d, hd, t, ht, rfl⟩
    obtain ⟨p, hp, hm⟩ := parts_mem hP (X d) (Y d) ht
    exact List.mem_flatMap.2 ⟨_, List.mem_map.2 ⟨d, hd, rfl⟩, List.mem_flatMap.2 ⟨p, hp,
      List.mem_map.2 ⟨_, hm, he d t⟩⟩⟩

/-- `lo` and `hi` are a smallest and a largest of the values `Z` of the traces of the files, with the numbers of traces
that have them. -/
def Bounds (ds : List Disk) (nt : Disk → Nat) (Z : Disk → Nat → ℚ) (lo hi : Elem ℚ) : Prop :=
  (∃ d ∈ ds, lo.num < nt d ∧ lo.val = Z d lo.num) ∧ (∃ d ∈ ds, hi.num < nt d ∧ hi.val = Z d hi.num) ∧
  ∀ d ∈ ds, ∀ t, t < nt d → lo.val ≤ Z d t ∧ Z d t ≤ hi.val

theorem set_bounds {P : Nat} (hP : 0 < P) (ds : List Disk) (nt : Disk → Nat) (hnt : ∀ d ∈ ds, 0 < nt d ∧ nt d ≤ 2 ^ 64)
    (X Y : Disk → Nat → ℚ) (e e' : ℚ × ℚ → ℚ) (Z : Disk → Nat → ℚ) (he : ∀ d t, e (X d t, Y d t) = Z d t)
    (hz : ∀ d t, Z d t ≤ 2 ^ 47 ∧ (0 < Z d t → 1 / 2 ^ 16 ≤ Z d t)) (hpos : ∃ d ∈ ds, ∃ t, t < nt d ∧ 0 < Z d t) :
    Bounds ds nt Z (setMinMax e e' (ds.map fun d => partsOf P (nt d) (X d) (Y d))).1
      (setMinMax e e' (ds.map fun d => partsOf P (nt d) (X d) (Y d))).2 := by
  have hv := values_iff hP ds nt X Y e Z he
  have c1 : ∀ f ∈ (ds.map fun d => partsOf P (nt d) (X d) (Y d)), ∃ p ∈ f, p.2 ≠ [] := by
    intro f hf
    obtain ⟨d, hd, rfl⟩ := List.mem_map.1 hf
    obtain ⟨p, hp, hm⟩ := parts_mem hP (X d) (Y d) (hnt d hd).1
    exact ⟨p, hp, List.ne_nil_of_mem hm⟩
  have c2 : ∀ f ∈ (ds.map fun d => partsOf P (nt d) (X d) (Y d)), ∀ p ∈ f, p.1 + p.2.length ≤ 2 ^ 64 := by
    intro f hf p hp
    obtain ⟨d, hd, rfl⟩ := List.mem_map.1 hf
    exact parts_bound hP (hnt d hd).2 (X d) (Y d) hp
  have c3 : ∀ v ∈ valuesOf e (ds.map fun d => partsOf P (nt d) (X d) (Y d)), v ≤ 2 ^ 1024 - 2 ^ 971 := by
    intro v h
    obtain ⟨d, -, t, -, rfl⟩ := (hv v).1 h
    exact le_trans (hz d t).1 (by decide +kernel)
  have c4 : ∃ v ∈ valuesOf e (ds.map fun d => partsOf P (nt d) (X d) (Y d)), 1 / 2 ^ 1022 ≤ v := by
    obtain ⟨d, hd, t, ht, h⟩ := hpos
    exact ⟨_, (hv _).2 ⟨d, hd, t, ht, rfl⟩, le_trans (by decide +kernel) ((hz d t).2 h)⟩
  obtain ⟨⟨-, l1⟩, -, l2⟩ := C38_set_partial e e' _ c1 c2 c3 c4
  obtain ⟨⟨f, hf, p, hp, j, a, n1, n2⟩, ⟨f', hf', p', hp', j', a', n1', n2'⟩, -⟩ := C38_numbers_partial e e' _ c1 c2 c3 c4
  obtain ⟨d, hd, rfl⟩ := List.mem_map.1 hf
  obtain ⟨d', hd', rfl⟩ := List.mem_map.1 hf'
  obtain ⟨k1, k2⟩ := parts_at hP (X d) (Y d) hp n1
  obtain ⟨k1', k2'⟩ := parts_at hP (X d') (Y d') hp' n1'
  refine ⟨⟨d, hd, ?_⟩, ⟨d', hd', ?_⟩, fun d hd t ht => ⟨?_, ?_⟩⟩
  · rw [n2, k2]; exact ⟨k1, he _ _⟩
  · rw [n2', k2']; exact ⟨k1', he _ _⟩
  · exact l1 _ ((hv _).2 ⟨d, hd, t, ht, rfl⟩)
  · exact l2 _ ((hv _).2 ⟨d, hd, t, ht, rfl⟩)

theorem Readable.few_traces {d : Disk} {i : Info} (h : Readable d i) : i.nt ≤ 2 ^ 64 := by
  obtain ⟨h1, -⟩ := h.addr
  unfold taddr at h1
  have : i.nt * 1 ≤ i.nt * (240 + 4 * i.ns) := Nat.mul_le_mul_left _ (by omega)
  omega

/-- The whole call, up to the values found. -/
theorem minmax_run (P : Nat) (hP : 0 < P) (m1 m2 : Nat) (h1 : HeaderItem m1) (h2 : HeaderItem m2) (rule : Rule)
    (hr : SetRule rule) (ds : List Disk) (info : Disk → Info) (hd : ∀ d ∈ ds, Readable d (info d))
    (h0 : (∀ d ∈ ds, P ≤ (info d).nt) ∨ DefaultItem m1 ∧ DefaultItem m2) :
    ∃ rd, SetRule rd ∧ Rules.abs rd = Rules.abs rule ∧ getMinMaxMeta P m1 m2 rule ds = .ok
      ([(setMinMax Prod.fst Prod.snd (ds.map fun d =>
          partsOf P (info d).nt (itemVal d (info d).ns m1) (itemVal d (info d).ns m2))).1,
        (setMinMax Prod.fst Prod.snd (ds.map fun d =>
          partsOf P (info d).nt (itemVal d (info d).ns m1) (itemVal d (info d).ns m2))).2,
        (setMinMax Prod.snd Prod.fst (ds.map fun d =>
          partsOf P (info d).nt (itemVal d (info d).ns m1) (itemVal d (info d).ns m2))).1,
        (setMinMax Prod.snd Prod.fst (ds.map fun d =>
          partsOf P (info d).nt (itemVal d (info d).ns m1) (itemVal d (info d).ns m2))).2], rd) := by
  obtain ⟨ra, a, rb, b, rc, rd, e1, e2, e3, e4, e5, e6, e7, e8, e9⟩ := hr.added h1 h2
  refine ⟨rd, e8, e9, ?_⟩
  unfold getMinMaxMeta
  rw [e1, Res.ok_bind]
  simp only
  rw [e2, Res.ok_bind]
  unfold setExtremes
  simp only
  rw [collect_ok (g := fun d => partsOf P (info d).nt (itemVal d (info d).ns m1) (itemVal d (info d).ns m2))]
  · rw [Res.ok_bind, Res.ok_bind, e6, Res.ok_bind, e7, Res.ok_bind]
  · intro d hdm
    rw [(hd d hdm).opens, Res.ok_bind]
    exact filePairs_spec hP (hd d hdm) e3 h1 h2 e4 e5 (h0.imp (fun h => h d hdm) id)

/-! ## C102 -/

/-- **C102** (part): for any number of files and of processes and any two items of the trace header, what the call gives are
the smallest and the largest of each item among all traces of all files, as the bytes of the headers have them (where the
standard puts the item, with its scalar), each with the number of a trace that has it; and the rule of the set is as before.
Missing: items with no positive value in any file (`C102_negative_refuted`), files without traces (`C102_empty_refuted`),
items outside the default rule when a process has no trace of some file (`C102_share_refuted`), items that the library does
not add (`C102_item_refuted`). -/
theorem C102_extremes_partial (P : Nat) (hP : 0 < P) (m1 m2 : Nat) (h1 : HeaderItem m1) (h2 : HeaderItem m2) (rule : Rule)
    (hr : SetRule rule) (ds : List Disk) (info : Disk → Info) (hd : ∀ d ∈ ds, Readable d (info d))
    (hnt : ∀ d ∈ ds, 0 < (info d).nt)
    (h0 : (∀ d ∈ ds, P ≤ (info d).nt) ∨ DefaultItem m1 ∧ DefaultItem m2)
    (hpos : ∀ m, m = m1 ∨ m = m2 → ∃ d ∈ ds, ∃ t, t < (info d).nt ∧ 0 < itemVal d (info d).ns m t) :
    ∃ e0 e1 e2 e3 rule', getMinMaxMeta P m1 m2 rule ds = .ok ([e0, e1, e2, e3], rule') ∧
      Bounds ds (fun d => (info d).nt) (fun d => itemVal d (info d).ns m1) e0 e1 ∧
      Bounds ds (fun d => (info d).nt) (fun d => itemVal d (info d).ns m2) e2 e3 ∧
      SetRule rule' ∧ ∀ m, Rules.abs rule' m = Rules.abs rule m := by
  obtain ⟨rd, k1, k2, k3⟩ := minmax_run P hP m1 m2 h1 h2 rule hr ds info hd h0
  have hn : ∀ d ∈ ds, 0 < (info d).nt ∧ (info d).nt ≤ 2 ^ 64 := fun d h => ⟨hnt d h, (hd d h).few_traces⟩
  exact ⟨_, _, _, _, rd, k3,
    set_bounds hP ds (fun d => (info d).nt) hn _ _ _ _ (fun d => itemVal d (info d).ns m1) (fun _ _ => rfl)
      (fun d t => item_range d _ m1 t) (hpos m1 (Or.inl rfl)),
    set_bounds hP ds (fun d => (info d).nt) hn _ _ _ _ (fun d => itemVal d (info d).ns m2) (fun _ _ => rfl)
      (fun d t => item_range d _ m2 t) (hpos m2 (Or.inr rfl)), k1, fun m => by rw [k2]⟩

/-- C102 fails: if no trace of any file has a positive value of the item, the largest is given as the smallest positive
normal double, which no trace has. -/
theorem C102_negative_refuted (P : Nat) (hP : 0 < P) (m1 m2 : Nat) (h1 : HeaderItem m1) (h2 : HeaderItem m2) (rule : Rule)
    (hr : SetRule rule) (ds : List Disk) (info : Disk → Info) (hd : ∀ d ∈ ds, Readable d (info d))
    (hnt : ∀ d ∈ ds, 0 < (info d).nt)
    (h0 : (∀ d ∈ ds, P ≤ (info d).nt) ∨ DefaultItem m1 ∧ DefaultItem m2)
    (hneg : ∀ d ∈ ds, ∀ t, t < (info d).nt → itemVal d (info d).ns m1 t ≤ 0) :
    ∃ e0 e1 e2 e3 rule', getMinMaxMeta P m1 m2 rule ds = .ok ([e0, e1, e2, e3], rule') ∧ e1.val = 1 / 2 ^ 1022 ∧
      ∀ d ∈ ds, ∀ t, t < (info d).nt → e1.val ≠ itemVal d (info d).ns m1 t := by
  obtain ⟨rd, k1, k2, k3⟩ := minmax_run P hP m1 m2 h1 h2 rule hr ds info hd h0
  have hv := values_iff hP ds (fun d => (info d).nt) (fun d => itemVal d (info d).ns m1) (fun d => itemVal d (info d).ns m2)
    Prod.fst (fun d => itemVal d (info d).ns m1) (fun _ _ => rfl)
  obtain ⟨r1, r2⟩ := C38_negative_refuted Prod.fst Prod.snd (ds.map fun d =>
      partsOf P (info d).nt (itemVal d (info d).ns m1) (itemVal d (info d).ns m2)) (by
    intro f hf
    obtain ⟨d, hdm, rfl⟩ := List.mem_map.1 hf
    obtain ⟨p, hp, hm⟩ := parts_mem hP (itemVal d (info d).ns m1) (itemVal d (info d).ns m2) (hnt d hdm)
    exact ⟨p, hp, List.ne_nil_of_mem hm⟩) (by
    intro f hf p hp
    obtain ⟨d, hdm, rfl⟩ := List.mem_map.1 hf
    exact parts_bound hP (hd d hdm).few_traces _ _ hp) (by
    intro v hvm
    obtain ⟨d, hdm, t, ht, rfl⟩ := (hv v).1 hvm
    exact lt_of_le_of_lt (hneg d hdm t ht) (by decide +kernel))
  exact ⟨_, _, _, _, rd, k3, r1, fun d hdm t ht he => r2 ((hv _).2 ⟨d, hdm, t, ht, he⟩)⟩

/-- C102 fails: a file without traces (also one that is missing, or has no header) counts as a trace with the value 0 and
the number 2^64 - 1. If all values are positive, that is what is given as the smallest. -/
theorem C102_empty_refuted (P : Nat) (hP : 0 < P) (m1 m2 : Nat) (h1 : HeaderItem m1) (h2 : HeaderItem m2) (rule : Rule)
    (hr : SetRule rule) (ds : List Disk) (info : Disk → Info) (hd : ∀ d ∈ ds, Readable d (info d))
    (hdef : DefaultItem m1 ∧ DefaultItem m2) (d0 : Disk) (hm0 : d0 ∈ ds) (he0 : (info d0).nt = 0)
    (hpos : ∀ d ∈ ds, ∀ t, t < (info d).nt → 0 < itemVal d (info d).ns m1 t) :
    ∃ e0 e1 e2 e3 rule', getMinMaxMeta P m1 m2 rule ds = .ok ([e0, e1, e2, e3], rule') ∧ e0 = ⟨0, 2 ^ 64 - 1⟩ := by
  obtain ⟨rd, k1, k2, k3⟩ := minmax_run P hP m1 m2 h1 h2 rule hr ds info hd (Or.inr hdef)
  refine ⟨_, _, _, _, rd, k3, ?_⟩
  have hempty : ∀ d, (info d).nt = 0 → getCoordMinMax 0 Prod.fst Prod.snd
      (partsOf P (info d).nt (itemVal d (info d).ns m1) (itemVal d (info d).ns m2)) =
      (⟨0, 2 ^ 64 - 1⟩, ⟨0, 2 ^ 64 - 1⟩) := by
    intro d hz
    refine (C37_empty 0 Prod.fst Prod.snd _).2 fun p hp => ?_
    obtain ⟨r, hr, rfl⟩ := List.mem_map.1 hp
    have := sz_le (info d).nt P r hP (List.mem_range.1 hr)
    simp only
    rw [show sz (info d).nt P r = 0 by omega]
    rfl
  have hfull : ∀ d ∈ ds, (info d).nt ≠ 0 → 0 < (getCoordMinMax 0 Prod.fst Prod.snd
      (partsOf P (info d).nt (itemVal d (info d).ns m1) (itemVal d (info d).ns m2))).1.val := by
    intro d hdm hz
    obtain ⟨p, hp, hm⟩ := parts_mem hP (itemVal d (info d).ns m1) (itemVal d (info d).ns m2) (Nat.pos_of_ne_zero hz)
    obtain ⟨⟨q, hq, j, a, n1, n2, -⟩, -⟩ := C37_minmax_partial (0 : ℚ) Prod.fst Prod.snd
      (partsOf P (info d).nt (itemVal d (info d).ns m1) (itemVal d (info d).ns m2))
      (fun q hq => parts_bound hP (hd d hdm).few_traces _ _ hq) ⟨p, hp, List.ne_nil_of_mem hm⟩
    obtain ⟨q1, q2⟩ := parts_at hP _ _ hq n1
    rw [n2, q2]
    exact hpos d hdm _ q1
  rw [setMinMax_eq]
  simp only [List.map_map]
  obtain ⟨f1, f2⟩ := foldMin_spec (ds.map ((fun f => (getCoordMinMax 0 Prod.fst Prod.snd f).1) ∘ fun d =>
      partsOf P (info d).nt (itemVal d (info d).ns m1) (itemVal d (info d).ns m2))) ⟨dblMax, noTrace⟩
  generalize (ds.map ((fun f => (getCoordMinMax 0 Prod.fst Prod.snd f).1) ∘ fun d =>
      partsOf P (info d).nt (itemVal d (info d).ns m1) (itemVal d (info d).ns m2))).foldl takeMin ⟨dblMax, noTrace⟩ = e at *
  have hle := (f2 _ (List.mem_cons_of_mem _ (List.mem_map_of_mem hm0))).1
  simp only [Function.comp_apply, hempty d0 he0] at hle
  rcases List.mem_cons.1 f1 with h | h
  · rw [h] at hle
    exact absurd hle (by decide +kernel)
  · obtain ⟨d, hdm, rfl⟩ := List.mem_map.1 h
    simp only [Function.comp_apply] at hle ⊢
    by_cases hz : (info d).nt = 0
    · rw [hempty d hz]
    · exact absurd (hfull d hdm hz) (not_lt.2 hle)

theorem collect_ub {α β : Type} {f : α → Res β} {l : List α} (h : ∀ a ∈ l, (∃ b, f a = .ok b) ∨ f a = .ub) {a : α} (ha : a ∈ l)
    (hf : f a = .ub) : collect f l = .ub := by
  induction l with
  | nil => cases ha
  | cons x l ih =>
    unfold collect
    rcases h x (by simp) with ⟨b, hb⟩ | hb
    · rcases List.mem_cons.1 ha with rfl | ha
      · rw [hf] at hb; cases hb
      · rw [hb, Res.ok_bind, ih (fun y hy => h y (by simp [hy])) ha]; rfl
    · rw [hb]; rfl

/-- C102 fails: if there is a file with fewer traces than there are processes and one of the items is not among those of
the default rule, the behaviour is undefined. -/
theorem C102_share_refuted (P : Nat) (hP : 0 < P) (m1 m2 : Nat) (h1 : HeaderItem m1) (h2 : HeaderItem m2) (rule : Rule)
    (hr : SetRule rule) (ds : List Disk) (info : Disk → Info) (hd : ∀ d ∈ ds, Readable d (info d))
    (hdef : ¬ DefaultItem m1 ∨ ¬ DefaultItem m2) (d0 : Disk) (hm0 : d0 ∈ ds) (hfew : (info d0).nt < P) :
    getMinMaxMeta P m1 m2 rule ds = .ub := by
  obtain ⟨ra, a, rb, b, rc, rd, e1, e2, e3, e4, e5, -⟩ := hr.added h1 h2
  have hub : ∀ d ∈ ds, (info d).nt < P → filePairs P m1 m2 rb d (info d) = .ub := by
    intro d hdm hlt
    obtain ⟨g, g1, g2, g3⟩ := file_held hP (hd d hdm) e3
    unfold filePairs
    rw [g1, Res.ok_bind, g2]
    refine shares_absent dbl asDouble 0 m1 m2 _ _ _ (file_holding hP (hd d hdm) e3 h1 h2 e4 e5 g3)
      (off (info d).nt P (P - 1), sz (info d).nt P (P - 1), g (P - 1))
      (List.mem_map.2 ⟨P - 1, List.mem_range.2 (by omega), rfl⟩) ?_
      (hdef.imp (default_none h1) (default_none h2))
    show sz (info d).nt P (P - 1) = 0
    unfold sz
    rw [Nat.div_eq_of_lt hlt, Nat.mod_eq_of_lt hlt, if_neg (by omega)]
  unfold getMinMaxMeta
  rw [e1, Res.ok_bind]
  simp only
  rw [e2, Res.ok_bind]
  unfold setExtremes
  simp only
  rw [collect_ub (a := d0) ?_ hm0]
  · rfl
  · rw [(hd d0 hm0).opens, Res.ok_bind, hub d0 hm0 hfew]
  · intro d hdm
    rw [(hd d hdm).opens, Res.ok_bind]
    by_cases hlt : (info d).nt < P
    · exact Or.inr (hub d hdm hlt)
    · exact Or.inl ⟨_, filePairs_spec hP (hd d hdm) e3 h1 h2 e4 e5 (Or.inl (by omega))⟩

theorem getPrm_cases {p : Param ℚ} (hp : WF p) (h0 : 0 < p.sz) (m : Nat) :
    (Rules.abs p.rule m = none ∧ getPrm asDouble 0 m p = .ub) ∨
      (Rules.abs p.rule m ≠ none ∧ ∃ v, getPrm asDouble 0 m p = .ok v) := by
  cases ha : Rules.abs p.rule m with
  | none =>
    refine Or.inl ⟨rfl, ?_⟩
    have := (abs_none_iff hp.inv m).1 ha
    unfold getPrm getEntry
    rw [this]
  | some v =>
    obtain ⟨e, he, -⟩ := entry_of_abs ha
    exact Or.inr ⟨by simp, _, getPrm_item asDouble p hp he h0⟩

theorem pairOf_absent {p : Param ℚ} (hp : WF p) (h0 : 0 < p.sz) {m1 m2 : Nat}
    (h : Rules.abs p.rule m1 = none ∨ Rules.abs p.rule m2 = none) : pairOf asDouble m1 m2 p = .ub := by
  unfold pairOf
  rcases getPrm_cases hp h0 m1 with ⟨-, h1⟩ | ⟨h1, v, hv⟩
  · rw [h1]; rfl
  · rcases getPrm_cases hp h0 m2 with ⟨-, h2⟩ | ⟨h2, -⟩
    · rw [hv, Res.ok_bind, h2]; rfl
    · exact absurd h (by tauto)

theorem dr_beyond {m : Nat} (h : 30 ≤ m) : Rules.abs dr m = none := by
  have hm : ∀ q ∈ dr.map, q.1 < 30 := by unfold dr; decide +kernel
  cases ha : Rules.abs dr m with
  | none => rfl
  | some v =>
    obtain ⟨e, he, -⟩ := entry_of_abs ha
    have := hm _ he
    simp only at this
    omega

/-- C102 fails: with an item the library does not add by itself (the down-sweep direction and the four miscellaneous items,
`Meta.h` 30 to 34, or any beyond) that the set's rule does not have, the behaviour is undefined for every set with a file. -/
theorem C102_item_refuted (P : Nat) (hP : 0 < P) (m1 m2 : Nat) (rule : Rule) (hr : SetRule rule) (ds : List Disk)
    (info : Disk → Info) (hd : ∀ d ∈ ds, Readable d (info d)) (hne : ds ≠ [])
    (hm : (30 ≤ m1 ∧ Rules.abs rule m1 = none) ∨ (30 ≤ m2 ∧ Rules.abs rule m2 = none)) :
    getMinMaxMeta P m1 m2 rule ds = .ub := by
  have hk : ∀ {m}, 30 ≤ m → known m = none := by
    intro m h
    cases hk : known m with
    | none => rfl
    | some v => have := known_lt hk; omega
  obtain ⟨ra, a, a1, a2, a3, a4, a5⟩ := hr.add m1
  obtain ⟨rb, b, b1, b2, b3, b4, b5⟩ := a2.add m2
  have key : ∀ {m}, 30 ≤ m → Rules.abs rule m = none → Rules.abs rb m = none := by
    intro m h h0
    have : Rules.abs ra m = none := by
      by_cases e : m = m1
      · rw [e] at h0 h ⊢; rw [a5, h0, hk h]; rfl
      · rw [a4 _ e]; exact h0
    by_cases e : m = m2
    · rw [e] at this h ⊢; rw [b5, this, hk h]; rfl
    · rw [b4 _ e]; exact this
  have hab : Rules.abs rb m1 = none ∨ Rules.abs rb m2 = none := hm.imp (fun h => key h.1 h.2) (fun h => key h.1 h.2)
  have hdr : Rules.abs dr m1 = none ∨ Rules.abs dr m2 = none := hm.imp (fun h => dr_beyond h.1) (fun h => dr_beyond h.1)
  have hub : ∀ d ∈ ds, filePairs P m1 m2 rb d (info d) = .ub := by
    intro d hdm
    obtain ⟨g, g1, g2, g3⟩ := file_held hP (hd d hdm) b2
    unfold filePairs
    rw [g1, Res.ok_bind, g2]
    obtain ⟨Q, rfl⟩ := Nat.exists_eq_succ_of_ne_zero (Nat.pos_iff_ne_zero.1 hP)
    rw [List.range_succ_eq_map, List.map_cons]
    unfold shares
    have : share dbl asDouble 0 m1 m2 (off (info d).nt (Q + 1) 0, sz (info d).nt (Q + 1) 0, g 0) = .ub := by
      unfold share
      by_cases hz : sz (info d).nt (Q + 1) 0 = 0
      · rw [if_pos hz, ctor_default, Res.ok_bind, pairOf_absent (dr_ok 0 1).wf (by show 0 < 1; omega) hdr]; rfl
      · rw [if_neg hz]
        obtain ⟨w1, w2, w3, -⟩ := g3 0 (by omega)
        obtain ⟨n, hn⟩ := Nat.exists_eq_succ_of_ne_zero hz
        simp only
        rw [hn]
        unfold pairs
        obtain ⟨q, c1, c2, c3, c4, -⟩ := C16_copy_partial dbl (g 0) (Params.mk 0 (g 0).rule 1) w1 (mk_wf 0 w1.inv 1) 0 0
          (by rw [w3]; exact Nat.pos_of_ne_zero hz) (by show 0 < 1; omega) true (fun _ => rfl) (fun hc => ⟨by
            show HdrLayout (g 0).rule; rw [w2]; exact C12_known_layout rb b2.reach.inv b2.known, by
            show (g 0).rule.fullextent = true; rw [w2]; exact b2.whole.1, by
            show (g 0).rule.start = 0; rw [w2]; exact b2.whole.2.1, raw_len hP (hd d hdm) (Nat.succ_pos Q) w1 w3 hc⟩)
        rw [c1, Res.ok_bind, pairOf_absent c2 (by rw [c4]; show 0 < 1; omega) (by
          rw [c3]; show Rules.abs (g 0).rule m1 = none ∨ Rules.abs (g 0).rule m2 = none; rw [w2]; exact hab)]
        rfl
    rw [this]; rfl
  unfold getMinMaxMeta
  rw [a1, Res.ok_bind]
  simp only
  rw [b1, Res.ok_bind]
  unfold setExtremes
  simp only
  obtain ⟨d0, hd0⟩ := List.exists_mem_of_ne_nil ds hne
  have hall : ∀ d ∈ ds, (do let i ← openRead d; filePairs P m1 m2 rb d i) = .ub := by
    intro d hdm
    rw [(hd d hdm).opens, Res.ok_bind, hub d hdm]
  rw [collect_ub (fun d hdm => Or.inr (hall d hdm)) hd0 (hall d0 hd0)]
  rfl

/-! ## Examples -/

/-- The rule a set has unless told otherwise. -/
theorem set_rule : SetRule cr := by
  obtain ⟨r, h1, h2, h3⟩ := C10_ctor [COPY] true false false
  rw [ctor_copy] at h1
  cases h1
  have hw : Whole cr := by unfold cr Whole; decide +kernel
  refine ⟨h2, hw, ?_, by rw [h3]; rfl⟩
  intro m v hv
  rw [h3] at hv
  by_cases hm : m = 1 ∨ m = 2
  · rw [if_pos hm] at hv
    cases hv
    exact Or.inl ⟨hm, rfl⟩
  · rw [if_neg hm] at hv
    split at hv
    · rw [known_documented]; exact Or.inr hv
    · cases hv

/-- Records whose in-line numbers are 3, 4, ... and whose source numbers are -1. -/
def exBytes (x : Nat) : Byte :=
  if x % 244 = 191 then BitVec.ofNat 8 (x / 244 + 3)
  else if 16 ≤ x % 244 ∧ x % 244 < 20 then 0xff#8 else 0#8

/-- What is found on opening a file. -/
def infoOf (d : Disk) : Info := okOr ⟨0, 0, 0, 0, []⟩ (openRead d)

theorem infoOf_rec {n : Nat} (v : Nat → Byte) (hn : plainSz n 1 < 2 ^ 63) :
    Readable (recFile n v) (infoOf (recFile n v)) ∧ (infoOf (recFile n v)).nt = n ∧ (infoOf (recFile n v)).ns = 1 := by
  obtain ⟨t, ht⟩ := recFile_open v hn
  have : infoOf (recFile n v) = ⟨1, n, exInc false, 5#16, t⟩ := by unfold infoOf; rw [ht]; rfl
  rw [this]
  exact ⟨⟨ht, hn, by show 1 ≤ 32767; omega⟩, rfl, rfl⟩

/-- Two files on two processes: the in-line numbers go from 3 to 5. -/
example : ∃ e0 e1 e2 e3 r', getMinMaxMeta 2 26 26 cr [recFile 3 exBytes, recFile 2 exBytes] = .ok ([e0, e1, e2, e3], r') ∧
    e0.val = 3 ∧ e1.val = 5 ∧ e1.num = 2 ∧ ∀ m, Rules.abs r' m = Rules.abs cr m := by
  obtain ⟨a1, a2, a3⟩ := infoOf_rec (n := 3) exBytes (by decide)
  obtain ⟨b1, b2, b3⟩ := infoOf_rec (n := 2) exBytes (by decide)
  have v0 : itemVal (recFile 3 exBytes) 1 26 0 = 3 := by decide +kernel
  have v1 : itemVal (recFile 3 exBytes) 1 26 1 = 4 := by decide +kernel
  have v2 : itemVal (recFile 3 exBytes) 1 26 2 = 5 := by decide +kernel
  have w0 : itemVal (recFile 2 exBytes) 1 26 0 = 3 := by decide +kernel
  have w1 : itemVal (recFile 2 exBytes) 1 26 1 = 4 := by decide +kernel
  generalize recFile 3 exBytes = d at *
  generalize recFile 2 exBytes = d' at *
  obtain ⟨e0, e1, e2, e3, r', h1, ⟨h2, h3, h4⟩, -, -, h5⟩ := C102_extremes_partial 2 (by omega) 26 26 (by unfold HeaderItem; omega)
    (by unfold HeaderItem; omega) cr set_rule [d, d'] infoOf
    (by simp only [List.mem_cons, List.not_mem_nil, or_false]; rintro x (rfl | rfl) <;> assumption)
    (by simp only [List.mem_cons, List.not_mem_nil, or_false]; rintro x (rfl | rfl) <;> omega)
    (Or.inl (by simp only [List.mem_cons, List.not_mem_nil, or_false]; rintro x (rfl | rfl) <;> omega))
    (by rintro m (rfl | rfl) <;> exact ⟨d, by simp, 0, by omega, by rw [a3, v0]; norm_num⟩)
  have k0 := h4 d (by simp) 0 (by simp only; omega)
  have k2 := h4 d (by simp) 2 (by simp only; omega)
  simp only [a3, v0, v2] at k0 k2
  refine ⟨e0, e1, e2, e3, r', h1, ?_, ?_, ?_, h5⟩
  · obtain ⟨x, hx, n1, n2⟩ := h2
    simp only [List.mem_cons, List.not_mem_nil, or_false] at hx
    rcases hx with rfl | rfl
    · simp only [a2, a3] at n1 n2
      have : e0.num = 0 ∨ e0.num = 1 ∨ e0.num = 2 := by omega
      rcases this with e | e | e <;> rw [e] at n2
      · rw [n2, v0]
      · rw [v1] at n2; linarith [k0.1]
      · rw [v2] at n2; linarith [k0.1]
    · simp only [b2, b3] at n1 n2
      have : e0.num = 0 ∨ e0.num = 1 := by omega
      rcases this with e | e <;> rw [e] at n2
      · rw [n2, w0]
      · rw [w1] at n2; linarith [k0.1]
  · obtain ⟨x, hx, n1, n2⟩ := h3
    simp only [List.mem_cons, List.not_mem_nil, or_false] at hx
    rcases hx with rfl | rfl
    · simp only [a2, a3] at n1 n2
      have : e1.num = 0 ∨ e1.num = 1 ∨ e1.num = 2 := by omega
      rcases this with e | e | e <;> rw [e] at n2
      · rw [v0] at n2; linarith [k2.2]
      · rw [v1] at n2; linarith [k2.2]
      · rw [n2, v2]
    · simp only [b2, b3] at n1 n2
      have : e1.num = 0 ∨ e1.num = 1 := by omega
      rcases this with e | e <;> rw [e] at n2
      · rw [w0] at n2; linarith [k2.2]
      · rw [w1] at n2; linarith [k2.2]
  · obtain ⟨x, hx, n1, n2⟩ := h3
    simp only [List.mem_cons, List.not_mem_nil, or_false] at hx
    rcases hx with rfl | rfl
    · simp only [a2, a3] at n1 n2
      have : e1.num = 0 ∨ e1.num = 1 ∨ e1.num = 2 := by omega
      rcases this with e | e | e
      · rw [e, v0] at n2; linarith [k2.2]
      · rw [e, v1] at n2; linarith [k2.2]
      · exact e
    · simp only [b2, b3] at n1 n2
      have : e1.num = 0 ∨ e1.num = 1 := by omega
      rcases this with e | e
      · rw [e, w0] at n2; linarith [k2.2]
      · rw [e, w1] at n2; linarith [k2.2]

/-- The source numbers of these files are negative (`C102_negative_refuted`). -/
example : ∀ t, t < 3 → itemVal (recFile 3 exBytes) 1 10 t ≤ 0 := by
  have : ∀ t ∈ List.range 3, itemVal (recFile 3 exBytes) 1 10 t ≤ 0 := by decide +kernel
  exact fun t ht => this t (List.mem_range.2 ht)

/-- A file without traces, or nothing at all, among others (`C102_empty_refuted`). -/
example : Readable ⟨0, fun _ => 0#8⟩ (infoOf ⟨0, fun _ => 0#8⟩) ∧ (infoOf ⟨0, fun _ => 0#8⟩).nt = 0 ∧
    Readable (recFile 0 exBytes) (infoOf (recFile 0 exBytes)) ∧ (infoOf (recFile 0 exBytes)).nt = 0 ∧
    DefaultItem 26 ∧ HeaderItem 26 ∧ ∀ t, t < 3 → 0 < itemVal (recFile 3 exBytes) 1 26 t := by
  have : ∀ t ∈ List.range 3, 0 < itemVal (recFile 3 exBytes) 1 26 t := by decide +kernel
  obtain ⟨a1, a2, -⟩ := infoOf_rec (n := 0) exBytes (by decide)
  refine ⟨⟨rfl, by decide, by decide⟩, rfl, a1, a2, by unfold DefaultItem; omega, by unfold HeaderItem; omega,
    fun t ht => this t (List.mem_range.2 ht)⟩

/-- The source number is not an item of the default rule, and a file of three traces on four processes
(`C102_share_refuted`); the first miscellaneous item is in no rule of a set (`C102_item_refuted`). -/
example : ¬ DefaultItem 10 ∧ HeaderItem 10 ∧ (infoOf (recFile 3 exBytes)).nt < 4 ∧ Rules.abs cr 31 = none := by
  obtain ⟨-, a2, -⟩ := infoOf_rec (n := 3) exBytes (by decide)
  refine ⟨by unfold DefaultItem; omega, by unfold HeaderItem; omega, by omega, ?_⟩
  unfold cr; decide +kernel

end Verif.Extremes
