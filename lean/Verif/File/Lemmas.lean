import Verif.File.Model
import Verif.Param.Lemmas
import Verif.Layout.Lemmas
import Verif.Props.Endian
/-!
# Helper lemmas for trace I/O
-/
namespace Verif.Files
open Verif.Rules Verif.Params Verif.Endian Verif.Layout

/-! ## Moving bytes -/

theorem put_spec (buf : Arr Byte) (l : List (Nat × Nat)) : ∀ (d : Disk),
    (∀ m ∈ l, m.1 < buf.len) → (∀ m ∈ l, ∀ m' ∈ l, m.2 = m'.2 → m.1 = m'.1) →
    ∃ d', put buf d l = .ok d' ∧ (∀ m ∈ l, d'.byte m.2 = buf.val m.1) ∧
      (∀ x, (∀ m ∈ l, m.2 ≠ x) → d'.byte x = d.byte x) ∧ d.size ≤ d'.size ∧
      (∀ m ∈ l, m.2 < d'.size) ∧ (d'.size = d.size ∨ ∃ m ∈ l, d'.size = m.2 + 1) := by
  induction l with
  | nil =>
    intro d _ _
    exact ⟨d, rfl, by simp, fun _ _ => rfl, Nat.le_refl _, by simp, Or.inl rfl⟩
  | cons q l ih =>
    intro d hb hc
    obtain ⟨b, f⟩ := q
    obtain ⟨d', h1, h2, h3, h4, h5, h6⟩ := ih
      { size := max d.size (f + 1), byte := fun x => if x = f then buf.val b else d.byte x }
      (fun m hm => hb m (List.mem_cons_of_mem _ hm))
      (fun m hm m' hm' => hc m (List.mem_cons_of_mem _ hm) m' (List.mem_cons_of_mem _ hm'))
    have hlt : b < buf.len := hb (b, f) List.mem_cons_self
    refine ⟨d', by unfold put; rw [Arr.get_ok hlt, Res.ok_bind, h1], ?_, ?_, ?_, ?_, ?_⟩
    · intro m hm
      rcases List.mem_cons.mp hm with rfl | hm
      · by_cases hex : ∃ m ∈ l, m.2 = f
        · obtain ⟨m, hm, he⟩ := hex
          have := h2 m hm
          rw [he] at this
          rw [this, hc m (List.mem_cons_of_mem _ hm) (b, f) List.mem_cons_self he]
        · rw [h3 f fun m hm he => hex ⟨m, hm, he⟩]
          simp
      · exact h2 m hm
    · intro x hx
      have hxf : x ≠ f := fun h => hx (b, f) List.mem_cons_self h.symm
      rw [h3 x fun m hm => hx m (List.mem_cons_of_mem _ hm)]
      simp [hxf]
    · exact Nat.le_trans (Nat.le_max_left _ _) h4
    · intro m hm
      rcases List.mem_cons.mp hm with rfl | hm
      · exact Nat.lt_of_lt_of_le (Nat.lt_succ_self f) (Nat.le_trans (Nat.le_max_right _ _) h4)
      · exact h5 m hm
    · rcases h6 with h6 | ⟨m, hm, h6⟩
      · rcases Nat.le_total d.size (f + 1) with hle | hle
        · exact Or.inr ⟨(b, f), List.mem_cons_self, by rw [h6]; exact Nat.max_eq_right hle⟩
        · exact Or.inl (by rw [h6]; exact Nat.max_eq_left hle)
      · exact Or.inr ⟨m, List.mem_cons_of_mem _ hm, h6⟩

theorem fetch_spec (d : Disk) (l : List (Nat × Nat)) : ∀ (buf : Arr Byte),
    (∀ m ∈ l, m.1 < buf.len) → (∀ m ∈ l, ∀ m' ∈ l, m.1 = m'.1 → m.2 = m'.2) → (∀ m ∈ l, m.2 < d.size) →
    ∃ b', fetch d buf l = .ok b' ∧ b'.len = buf.len ∧ (∀ m ∈ l, b'.val m.1 = d.byte m.2) ∧
      (∀ x, (∀ m ∈ l, m.1 ≠ x) → b'.val x = buf.val x) := by
  induction l with
  | nil => intro buf _ _ _; exact ⟨buf, rfl, rfl, by simp, fun _ _ => rfl⟩
  | cons q l ih =>
    intro buf hb hc hs
    obtain ⟨b, f⟩ := q
    obtain ⟨b', h1, h2, h3, h4⟩ := ih { buf with val := fun j => if j = b then d.byte f else buf.val j }
      (fun m hm => hb m (List.mem_cons_of_mem _ hm))
      (fun m hm m' hm' => hc m (List.mem_cons_of_mem _ hm) m' (List.mem_cons_of_mem _ hm'))
      (fun m hm => hs m (List.mem_cons_of_mem _ hm))
    have hlt : b < buf.len := hb (b, f) List.mem_cons_self
    have hf : f < d.size := hs (b, f) List.mem_cons_self
    refine ⟨b', by unfold fetch; rw [if_pos hf, Arr.set_ok hlt, Res.ok_bind, h1], h2, ?_, ?_⟩
    · intro m hm
      rcases List.mem_cons.mp hm with rfl | hm
      · by_cases hex : ∃ m ∈ l, m.1 = b
        · obtain ⟨m, hm, he⟩ := hex
          have := h3 m hm
          rw [he] at this
          rw [this, hc m (List.mem_cons_of_mem _ hm) (b, f) List.mem_cons_self he]
        · rw [h4 b fun m hm he => hex ⟨m, hm, he⟩]
          simp
      · exact h3 m hm
    · intro x hx
      have hxb : x ≠ b := fun h => hx (b, f) List.mem_cons_self h.symm
      rw [h4 x fun m hm => hx m (List.mem_cons_of_mem _ hm)]
      simp [hxb]

/-- The moves are those of `n` blocks of `b` bytes, packed in memory, at `loc i` in the file. -/
def Blocks (l : List (Nat × Nat)) (n b : Nat) (loc : Nat → Nat) : Prop :=
  ∀ m, m ∈ l ↔ ∃ i r, i < n ∧ r < b ∧ m = (b * i + r, loc i + r)

/-- The blocks do not meet in the file. -/
def Sep (n b : Nat) (loc : Nat → Nat) : Prop := ∀ i j, i < j → j < n → loc i + b ≤ loc j

theorem put_blocks {l : List (Nat × Nat)} {n b : Nat} {loc : Nat → Nat} (hl : Blocks l n b loc)
    (hs : Sep n b loc) (buf : Arr Byte) (d : Disk) (hb : b * n ≤ buf.len) :
    ∃ d', put buf d l = .ok d' ∧ (∀ i r, i < n → r < b → d'.byte (loc i + r) = buf.val (b * i + r)) ∧
      (∀ x, (∀ i, i < n → ¬ (loc i ≤ x ∧ x < loc i + b)) → d'.byte x = d.byte x) ∧ d.size ≤ d'.size ∧
      (∀ i, i < n → 0 < b → loc i + b ≤ d'.size) ∧
      (d'.size = d.size ∨ ∃ i, i < n ∧ d'.size ≤ loc i + b) := by
  have hA : ∀ m ∈ l, m.1 < buf.len := by
    intro m hm
    obtain ⟨i, r, hi, hr, rfl⟩ := (hl m).mp hm
    have := base_mono (w := b) hi
    show b * i + r < buf.len
    omega
  have hB : ∀ m ∈ l, ∀ m' ∈ l, m.2 = m'.2 → m.1 = m'.1 := by
    intro m hm m' hm' he
    obtain ⟨i, r, hi, hr, rfl⟩ := (hl m).mp hm
    obtain ⟨j, q, hj, hq, rfl⟩ := (hl m').mp hm'
    simp only at he ⊢
    rcases Nat.lt_trichotomy i j with h | h | h
    · have := hs i j h hj; omega
    · subst h; omega
    · have := hs j i h hi; omega
  obtain ⟨d', h1, h2, h3, h4, h5, h6⟩ := put_spec buf l d hA hB
  refine ⟨d', h1, ?_, ?_, h4, ?_, ?_⟩
  · intro i r hi hr
    exact h2 (b * i + r, loc i + r) ((hl _).mpr ⟨i, r, hi, hr, rfl⟩)
  · intro x hx
    refine h3 x fun m hm he => ?_
    obtain ⟨i, r, hi, hr, rfl⟩ := (hl m).mp hm
    exact hx i hi ⟨by simp at he; omega, by simp at he; omega⟩
  · intro i hi hb
    have := h5 (b * i + (b - 1), loc i + (b - 1)) ((hl _).mpr ⟨i, b - 1, hi, by omega, rfl⟩)
    simp at this; omega
  · rcases h6 with h6 | ⟨m, hm, h6⟩
    · exact Or.inl h6
    · obtain ⟨i, r, hi, hr, rfl⟩ := (hl m).mp hm
      exact Or.inr ⟨i, hi, by simp at h6; omega⟩

theorem fetch_blocks {l : List (Nat × Nat)} {n b : Nat} {loc : Nat → Nat} (hl : Blocks l n b loc)
    (buf : Arr Byte) (d : Disk) (hb : b * n ≤ buf.len) (hs : ∀ i, i < n → loc i + b ≤ d.size) :
    ∃ b', fetch d buf l = .ok b' ∧ b'.len = buf.len ∧
      (∀ i r, i < n → r < b → b'.val (b * i + r) = d.byte (loc i + r)) ∧
      ∀ x, b * n ≤ x → b'.val x = buf.val x := by
  have hA : ∀ m ∈ l, m.1 < buf.len := by
    intro m hm
    obtain ⟨i, r, hi, hr, rfl⟩ := (hl m).mp hm
    have := base_mono (w := b) hi
    show b * i + r < buf.len
    omega
  have hB : ∀ m ∈ l, ∀ m' ∈ l, m.1 = m'.1 → m.2 = m'.2 := by
    intro m hm m' hm' he
    obtain ⟨i, r, hi, hr, rfl⟩ := (hl m).mp hm
    obtain ⟨j, q, hj, hq, rfl⟩ := (hl m').mp hm'
    simp only at he ⊢
    obtain ⟨h1, h2⟩ := idx_inj hr hq he
    rw [h1, h2]
  have hC : ∀ m ∈ l, m.2 < d.size := by
    intro m hm
    obtain ⟨i, r, hi, hr, rfl⟩ := (hl m).mp hm
    have := hs i hi
    show loc i + r < d.size
    omega
  obtain ⟨b', h1, h2, h3, h4⟩ := fetch_spec d l buf hA hB hC
  refine ⟨b', h1, h2, ?_, ?_⟩
  · intro i r hi hr
    exact h3 (b * i + r, loc i + r) ((hl _).mpr ⟨i, r, hi, hr, rfl⟩)
  · intro x hx
    refine h4 x fun m hm he => ?_
    obtain ⟨i, r, hi, hr, rfl⟩ := (hl m).mp hm
    have := base_mono (w := b) hi
    simp at he; omega

/-! ## The requests of the object layer -/

/-- Address of trace `k` as plain arithmetic. -/
abbrev taddr (ns k : Nat) : Nat := 3600 + k * (240 + 4 * ns)

/-- The traces of a request exist below `N`, and a file of `N` traces has less than `2^63` bytes. -/
structure Small (ns : Nat) (w : Where) (sz N : Nat) : Prop where
  fsz : taddr ns N < 2 ^ 63
  lt : ∀ i, i < sz → w.trace i < N
  start : ∀ o, w = .start o → 0 < sz → o + sz ≤ N
  len : ∀ l, w = .list l → l.length = sz
  cnt : sz ≤ N

theorem taddr_le {ns k N : Nat} (h : k < N) : taddr ns k + (240 + 4 * ns) ≤ taddr ns N := by
  have := Nat.mul_le_mul_right (240 + 4 * ns) (Nat.succ_le_of_lt h)
  rw [Nat.succ_mul] at this
  unfold taddr; omega

theorem Small.trace_start {ns sz N o : Nat} (h : Small ns (.start o) sz N) {i : Nat} (hi : i < sz) :
    (Where.start o).trace i = o + i := by
  have h1 := h.start o rfl (by omega)
  have h2 := h.fsz
  have h3 : N ≤ N * (240 + 4 * ns) := Nat.le_mul_of_pos_right _ (by omega)
  unfold taddr at h2
  exact add64_eq (by omega)

theorem Small.ns_lt {ns sz N : Nat} {w : Where} (h : Small ns w sz N) (hsz : 0 < sz) :
    240 + 4 * ns < 2 ^ 63 := by
  have h1 := h.cnt
  have h2 := h.fsz
  have h3 : 1 * (240 + 4 * ns) ≤ N * (240 + 4 * ns) := Nat.mul_le_mul_right _ (by omega)
  unfold taddr at h2; omega

theorem Small.loc {ns sz N : Nat} {w : Where} (h : Small ns w sz N) {k : Nat} (hk : k < N) :
    getDOLoc k ns = taddr ns k ∧ getDODFLoc k ns = taddr ns k + 240 := by
  have h2 := h.fsz
  have h1 := taddr_le (ns := ns) hk
  exact ⟨getFileSz_eq (show taddr ns k < 2 ^ 64 by omega), getDODFLoc_eq hk (show taddr ns N < 2 ^ 64 by omega)⟩

theorem Small.bytes {ns sz N : Nat} {w : Where} (h : Small ns w sz N) : (240 + 4 * ns) * sz < 2 ^ 63 := by
  have h1 := Nat.mul_le_mul_left (240 + 4 * ns) h.cnt
  have h2 := h.fsz
  unfold taddr at h2
  rw [Nat.mul_comm N] at h2
  omega

theorem wanted_strided (off b osz n : Nat) :
    Blocks (DataIO.Op.wanted (.strided off b osz n)) n b (fun i => off + osz * i) := by
  intro m
  simp only [DataIO.Op.wanted, List.mem_flatMap, List.mem_map, List.mem_range]
  constructor
  · rintro ⟨i, hi, r, hr, rfl⟩; exact ⟨i, r, hi, hr, rfl⟩
  · rintro ⟨i, r, hi, hr, rfl⟩; exact ⟨i, hi, r, hr, rfl⟩

theorem wanted_list (b : Nat) (offs : List Nat) :
    Blocks (DataIO.Op.wanted (.list b offs)) offs.length b (fun i => offs[i]?.getD 0) := by
  intro m
  simp only [DataIO.Op.wanted, List.mem_flatMap, List.mem_map, List.mem_range]
  constructor
  · rintro ⟨i, hi, r, hr, rfl⟩; exact ⟨i, r, hi, hr, by rw [Nat.mul_comm]⟩
  · rintro ⟨i, r, hi, hr, rfl⟩; exact ⟨i, hi, r, hr, by rw [Nat.mul_comm]⟩

theorem wanted_contig (off b n : Nat) :
    Blocks (DataIO.Op.wanted (.contig off (b * n))) n b (fun i => off + b * i) := by
  intro m
  simp only [DataIO.Op.wanted, List.mem_map, List.mem_range]
  constructor
  · rintro ⟨j, hj, rfl⟩
    have hb : 0 < b := by
      rcases Nat.eq_zero_or_pos b with h | h
      · subst h; simp at hj
      · exact h
    refine ⟨j / b, j % b, Nat.div_lt_of_lt_mul hj, Nat.mod_lt _ hb, ?_⟩
    have := Nat.div_add_mod j b
    rw [Prod.mk.injEq]; constructor <;> omega
  · rintro ⟨i, r, hi, hr, rfl⟩
    have := base_mono (w := b) hi
    exact ⟨b * i + r, by omega, by rw [Prod.mk.injEq]; constructor <;> omega⟩

theorem Blocks.congr {l : List (Nat × Nat)} {n b : Nat} {loc loc' : Nat → Nat} (h : Blocks l n b loc)
    (he : ∀ i, i < n → loc i = loc' i) : Blocks l n b loc' := by
  intro m
  rw [h m]
  constructor
  · rintro ⟨i, r, hi, hr, rfl⟩; exact ⟨i, r, hi, hr, by rw [he i hi]⟩
  · rintro ⟨i, r, hi, hr, rfl⟩; exact ⟨i, r, hi, hr, by rw [he i hi]⟩

theorem Blocks.nil {n b : Nat} {loc : Nat → Nat} (h : n = 0 ∨ b = 0) : Blocks [] n b loc := by
  intro m
  constructor
  · intro h; simp at h
  · rintro ⟨i, r, hi, hr, -⟩; omega

theorem list_getD (l : List Nat) (f : Nat → Nat) {i : Nat} (hi : i < l.length) :
    (l.map f)[i]?.getD 0 = f (l[i]?.getD 0) := by
  rw [List.getElem?_map, List.getElem?_eq_getElem hi]
  rfl

theorem sum_row (o i ns : Nat) : taddr ns (o + i) = taddr ns o + (240 + 4 * ns) * i := by
  unfold taddr
  rw [Nat.add_mul, Nat.mul_comm i]
  omega

theorem reqDO_blocks {ns sz N : Nat} {w : Where} (h : Small ns w sz N) :
    Blocks ((reqDO ns w sz).flatMap DataIO.Op.wanted) sz (240 + 4 * ns) (fun i => taddr ns (w.trace i)) := by
  rcases Nat.eq_zero_or_pos sz with hz | hz
  · subst hz
    cases w with
    | start o =>
      simp [reqDO, DataIO.Op.wanted, mul64]
      exact .nil (Or.inl rfl)
    | list l =>
      simp [reqDO, DataIO.Op.wanted]
      exact .nil (Or.inl rfl)
  have hns := h.ns_lt hz
  cases w with
  | start o =>
    have ho := h.start o rfl hz
    simp only [reqDO, List.flatMap_cons, List.flatMap_nil, List.append_nil]
    rw [getDOSz_eq (by omega), (h.loc (show o < N by omega)).1,
      mul64_eq (by rw [Nat.mul_comm]; have := h.bytes; omega), Nat.mul_comm sz]
    refine (wanted_contig _ _ _).congr fun i hi => ?_
    rw [h.trace_start hi, sum_row]
  | list l =>
    have hl := h.len l rfl
    simp only [reqDO, List.flatMap_cons, List.flatMap_nil, List.append_nil]
    rw [getDOSz_eq (by omega), List.take_of_length_le (by omega)]
    have := wanted_list (240 + 4 * ns) (l.map (getDOLoc · ns))
    rw [List.length_map, hl] at this
    refine this.congr fun i hi => ?_
    rw [list_getD _ _ (by omega)]
    exact (h.loc (h.lt i hi)).1

theorem reqMD_blocks {ns sz N : Nat} {w : Where} (h : Small ns w sz N) :
    Blocks ((reqMD ns w sz).flatMap DataIO.Op.wanted) sz 240 (fun i => taddr ns (w.trace i)) := by
  rcases Nat.eq_zero_or_pos sz with hz | hz
  · subst hz
    cases w <;> simp [reqMD, DataIO.Op.wanted] <;> exact .nil (Or.inl rfl)
  have hns := h.ns_lt hz
  cases w with
  | start o =>
    have ho := h.start o rfl hz
    simp only [reqMD, List.flatMap_cons, List.flatMap_nil, List.append_nil]
    rw [getDOSz_eq (by omega), (h.loc (show o < N by omega)).1]
    refine (wanted_strided _ _ _ _).congr fun i hi => ?_
    rw [h.trace_start hi, sum_row]
  | list l =>
    have hl := h.len l rfl
    simp only [reqMD, List.flatMap_cons, List.flatMap_nil, List.append_nil]
    rw [List.take_of_length_le (by omega)]
    have := wanted_list getMDSz (l.map (getDOLoc · ns))
    rw [List.length_map, hl] at this
    refine this.congr fun i hi => ?_
    rw [list_getD _ _ (by omega)]
    exact (h.loc (h.lt i hi)).1

theorem reqDF_blocks {ns sz N : Nat} {w : Where} (h : Small ns w sz N) :
    Blocks ((reqDF ns w sz).flatMap DataIO.Op.wanted) sz (4 * ns) (fun i => taddr ns (w.trace i) + 240) := by
  rcases Nat.eq_zero_or_pos sz with hz | hz
  · subst hz
    cases w with
    | start o => simp [reqDF, DataIO.Op.wanted]; exact .nil (Or.inl rfl)
    | list l =>
      by_cases hn : ns = 0 <;> simp [reqDF, DataIO.Op.wanted, hn] <;> exact .nil (Or.inl rfl)
  have hns := h.ns_lt hz
  cases w with
  | start o =>
    have ho := h.start o rfl hz
    simp only [reqDF, List.flatMap_cons, List.flatMap_nil, List.append_nil]
    rw [getDOSz_eq (by omega), getDFSz_eq (by omega), (h.loc (show o < N by omega)).2]
    refine (wanted_strided _ _ _ _).congr fun i hi => ?_
    rw [h.trace_start hi, sum_row]
    omega
  | list l =>
    have hl := h.len l rfl
    by_cases hn : ns = 0
    · simp only [reqDF, if_pos hn, List.flatMap_nil]
      exact .nil (Or.inr (by omega))
    simp only [reqDF, if_neg hn, List.flatMap_cons, List.flatMap_nil, List.append_nil]
    rw [getDFSz_eq (by omega), List.take_of_length_le (by omega)]
    have := wanted_list (4 * ns) (l.map (getDODFLoc · ns))
    rw [List.length_map, hl] at this
    refine this.congr fun i hi => ?_
    rw [list_getD _ _ (by omega)]
    exact (h.loc (h.lt i hi)).2

/-- Traces in increasing order. -/
def Inc (w : Where) (sz : Nat) : Prop := ∀ i j, i < j → j < sz → w.trace i < w.trace j
/-- Traces in nondecreasing order. -/
def Ndec (w : Where) (sz : Nat) : Prop := ∀ i j, i < j → j < sz → w.trace i ≤ w.trace j

theorem Inc.sep {ns sz b : Nat} {w : Where} (h : Inc w sz) (hb : b ≤ 240 + 4 * ns) (c : Nat) :
    Sep sz b (fun i => taddr ns (w.trace i) + c) := by
  intro i j hij hj
  have := taddr_le (ns := ns) (h i j hij hj)
  show taddr ns _ + c + b ≤ taddr ns _ + c
  omega

theorem getD_lt (l : List Nat) {i : Nat} (hi : i < l.length) : l[i]?.getD 0 = l[i] := by
  rw [List.getElem?_eq_getElem hi]; rfl

theorem nondec_of_pairwise (l : List Nat) (h : l.Pairwise (· ≤ ·)) : DataIO.nondec l = true := by
  induction l with
  | nil => rfl
  | cons a l ih =>
    cases l with
    | nil => rfl
    | cons b l =>
      rw [List.pairwise_cons] at h
      unfold DataIO.nondec
      rw [ih h.2, Bool.and_true]
      exact decide_eq_true (h.1 b List.mem_cons_self)

theorem legal_write {ns sz N : Nat} {l : List Nat} (h : Small ns (.list l) sz N) (hi : Inc (.list l) sz)
    (b : Nat) (loc : Nat → Nat) (c : Nat) (hb : b ≤ 240 + 4 * ns) (hloc : ∀ k, k < N → loc k = taddr ns k + c) :
    legal true (.list b ((l.take sz).map loc)) = true := by
  have hl := h.len l rfl
  simp only [legal, if_pos, decide_eq_true_eq]
  rw [List.take_of_length_le (by omega), List.pairwise_iff_getElem]
  intro i j h1 h2 hij
  rw [List.length_map] at h1 h2
  rw [List.getElem_map, List.getElem_map]
  have hlt := h.lt i (by omega)
  have hlt' := h.lt j (by omega)
  have hinc := hi i j hij (by omega)
  simp only [Where.trace] at hlt hlt' hinc
  rw [getD_lt l h1] at hlt hinc
  rw [getD_lt l h2] at hlt' hinc
  rw [hloc _ hlt, hloc _ hlt']
  have := taddr_le (ns := ns) hinc
  omega

theorem legal_read {ns sz N : Nat} {l : List Nat} (h : Small ns (.list l) sz N) (hi : Ndec (.list l) sz)
    (b : Nat) (loc : Nat → Nat) (c : Nat) (hloc : ∀ k, k < N → loc k = taddr ns k + c) :
    legal false (.list b ((l.take sz).map loc)) = true := by
  have hl := h.len l rfl
  simp only [legal]
  rw [if_neg (by simp), List.take_of_length_le (by omega)]
  apply nondec_of_pairwise
  rw [List.pairwise_iff_getElem]
  intro i j h1 h2 hij
  rw [List.length_map] at h1 h2
  rw [List.getElem_map, List.getElem_map]
  have hlt := h.lt i (by omega)
  have hlt' := h.lt j (by omega)
  have hinc := hi i j hij (by omega)
  simp only [Where.trace] at hlt hlt' hinc
  rw [getD_lt l h1] at hlt hinc
  rw [getD_lt l h2] at hlt' hinc
  rw [hloc _ hlt, hloc _ hlt']
  have := Nat.mul_le_mul_right (240 + 4 * ns) hinc
  unfold taddr; omega

theorem send_DO {ns sz N : Nat} {w : Where} (h : Small ns w sz N) (hi : Inc w sz) (d : Disk) (buf : Arr Byte) :
    send d buf (reqDO ns w sz) = put buf d ((reqDO ns w sz).flatMap DataIO.Op.wanted) := by
  unfold send
  rw [if_pos]
  cases w with
  | start o => rfl
  | list l =>
    rcases Nat.eq_zero_or_pos sz with hz | hz
    · subst hz; simp [reqDO, legal]
    have hns := h.ns_lt hz
    simp only [reqDO, List.all_cons, List.all_nil, Bool.and_true]
    rw [getDOSz_eq (by omega)]
    exact legal_write h hi _ _ 0 (Nat.le_refl _) fun k hk => (h.loc hk).1

theorem send_MD {ns sz N : Nat} {w : Where} (h : Small ns w sz N) (hi : Inc w sz) (d : Disk) (buf : Arr Byte) :
    send d buf (reqMD ns w sz) = put buf d ((reqMD ns w sz).flatMap DataIO.Op.wanted) := by
  unfold send
  rw [if_pos]
  cases w with
  | start o => rfl
  | list l =>
    simp only [reqMD, List.all_cons, List.all_nil, Bool.and_true]
    exact legal_write h hi _ _ 0 (by unfold getMDSz; omega) fun k hk => (h.loc hk).1

theorem send_DF {ns sz N : Nat} {w : Where} (h : Small ns w sz N) (hi : Inc w sz) (d : Disk) (buf : Arr Byte) :
    send d buf (reqDF ns w sz) = put buf d ((reqDF ns w sz).flatMap DataIO.Op.wanted) := by
  unfold send
  rw [if_pos]
  cases w with
  | start o => rfl
  | list l =>
    by_cases hn : ns = 0
    · simp [reqDF, hn]
    rcases Nat.eq_zero_or_pos sz with hz | hz
    · subst hz; simp [reqDF, legal, hn]
    have hns := h.ns_lt hz
    simp only [reqDF, if_neg hn, List.all_cons, List.all_nil, Bool.and_true]
    rw [getDFSz_eq (by omega)]
    exact legal_write h hi _ _ 240 (by omega) fun k hk => (h.loc hk).2

theorem recv_DO {ns sz N : Nat} {w : Where} (h : Small ns w sz N) (hi : Ndec w sz) (d : Disk) (buf : Arr Byte) :
    recv d buf (reqDO ns w sz) = fetch d buf ((reqDO ns w sz).flatMap DataIO.Op.wanted) := by
  unfold recv
  rw [if_pos]
  cases w with
  | start o => rfl
  | list l =>
    simp only [reqDO, List.all_cons, List.all_nil, Bool.and_true]
    exact legal_read h hi _ _ 0 fun k hk => (h.loc hk).1

theorem recv_MD {ns sz N : Nat} {w : Where} (h : Small ns w sz N) (hi : Ndec w sz) (d : Disk) (buf : Arr Byte) :
    recv d buf (reqMD ns w sz) = fetch d buf ((reqMD ns w sz).flatMap DataIO.Op.wanted) := by
  unfold recv
  rw [if_pos]
  cases w with
  | start o => rfl
  | list l =>
    simp only [reqMD, List.all_cons, List.all_nil, Bool.and_true]
    exact legal_read h hi _ _ 0 fun k hk => (h.loc hk).1

theorem recv_DF {ns sz N : Nat} {w : Where} (h : Small ns w sz N) (hi : Ndec w sz) (d : Disk) (buf : Arr Byte) :
    recv d buf (reqDF ns w sz) = fetch d buf ((reqDF ns w sz).flatMap DataIO.Op.wanted) := by
  unfold recv
  rw [if_pos]
  cases w with
  | start o => rfl
  | list l =>
    by_cases hn : ns = 0
    · simp [reqDF, hn]
    simp only [reqDF, if_neg hn, List.all_cons, List.all_nil, Bool.and_true]
    exact legal_read h hi _ _ 240 fun k hk => (h.loc hk).2

/-! ## Byte order of trace memory -/

theorem bytes4_ok {m : Arr Byte} {i : Nat} (h : 4 * i + 4 ≤ m.len) :
    bytes4 m i = .ok (m.val (4 * i), m.val (4 * i + 1), m.val (4 * i + 2), m.val (4 * i + 3)) := by
  unfold bytes4
  rw [Arr.get_ok (by omega), Res.ok_bind, Arr.get_ok (by omega), Res.ok_bind, Arr.get_ok (by omega), Res.ok_bind,
    Arr.get_ok (by omega), Res.ok_bind]

/-- Elements `i` to `i + n` have their bytes reversed, nothing else differs. -/
structure Swapped (i n : Nat) (m m' : Arr Byte) : Prop where
  len : m'.len = m.len
  inside : ∀ j r, i ≤ j → j < i + n → r < 4 → m'.val (4 * j + r) = m.val (4 * j + (3 - r))
  outside : ∀ x, ¬ (4 * i ≤ x ∧ x < 4 * (i + n)) → m'.val x = m.val x

theorem swap_step {m : Arr Byte} {i : Nat} (h : 4 * i + 4 ≤ m.len) (hl : m.len ≤ 2 ^ 64) :
    ∃ m', m.writes (4 * i) [m.val (4 * i + 3), m.val (4 * i + 2), m.val (4 * i + 1), m.val (4 * i)] = .ok m' ∧
      Swapped i 1 m m' := by
  obtain ⟨m', h1, h2, h3, h4⟩ := Arr.writes_spec
    [m.val (4 * i + 3), m.val (4 * i + 2), m.val (4 * i + 1), m.val (4 * i)] m (4 * i) (by simpa using h) hl
  refine ⟨m', h1, h2, ?_, ?_⟩
  · intro j r hj hj' hr
    have : j = i := by omega
    subst this
    have := h4 r (by simpa using hr)
    rw [this]
    match r, hr with
    | 0, _ => rfl
    | 1, _ => rfl
    | 2, _ => rfl
    | 3, _ => rfl
  · intro x hx
    exact h3 x (by simp; omega)

theorem Swapped.step {i n : Nat} {m m1 m' : Arr Byte} (h1 : Swapped i 1 m m1) (h2 : Swapped (i + 1) n m1 m') :
    Swapped i (n + 1) m m' := by
  refine ⟨h2.len.trans h1.len, ?_, ?_⟩
  · intro j r hj hj' hr
    by_cases hji : j = i
    · subst hji
      rw [h2.outside _ (by omega), h1.inside j r (by omega) (by omega) hr]
    · rw [h2.inside j r (by omega) (by omega) hr, h1.outside _ (by omega)]
  · intro x hx
    rw [h2.outside x (by omega), h1.outside x (by omega)]

theorem toFile_spec (n : Nat) : ∀ (i : Nat) (m : Arr Byte), 4 * (i + n) ≤ m.len → m.len ≤ 2 ^ 64 →
    ∃ m', toFile m i n = .ok m' ∧ Swapped i n m m' := by
  induction n with
  | zero =>
    intro i m _ _
    exact ⟨m, rfl, rfl, fun j r h1 h2 => by omega, fun _ _ => rfl⟩
  | succ n ih =>
    intro i m h hl
    obtain ⟨m1, a1, a2⟩ := swap_step (m := m) (i := i) (by omega) hl
    obtain ⟨m', b1, b2⟩ := ih (i + 1) m1 (by rw [a2.len]; omega) (by rw [a2.len]; exact hl)
    refine ⟨m', ?_, a2.step b2⟩
    unfold toFile loadF
    rw [bytes4_ok (by omega), Res.ok_bind, Res.ok_bind]
    rw [C03_encode_unsigned 4, C03_roundtrip32_bytes, a1, Res.ok_bind, b1]

theorem fromFile_spec (n : Nat) : ∀ (i : Nat) (m : Arr Byte), 4 * (i + n) ≤ m.len → m.len ≤ 2 ^ 64 →
    ∃ m', fromFile m i n = .ok m' ∧ Swapped i n m m' := by
  induction n with
  | zero =>
    intro i m _ _
    exact ⟨m, rfl, rfl, fun j r h1 h2 => by omega, fun _ _ => rfl⟩
  | succ n ih =>
    intro i m h hl
    obtain ⟨m1, a1, a2⟩ := swap_step (m := m) (i := i) (by omega) hl
    obtain ⟨m', b1, b2⟩ := ih (i + 1) m1 (by rw [a2.len]; omega) (by rw [a2.len]; exact hl)
    refine ⟨m', ?_, a2.step b2⟩
    unfold fromFile storeF
    rw [bytes4_ok (by omega), Res.ok_bind]
    simp only
    rw [C03_encode_unsigned 4, C03_roundtrip32_bytes]
    show (m.writes (4 * i) [m.val (4 * i + 3), m.val (4 * i + 2), m.val (4 * i + 1), m.val (4 * i)] >>= _) = _
    rw [a1, Res.ok_bind, b1]

theorem Swapped.twice {n : Nat} {m m1 m2 : Arr Byte} (h1 : Swapped 0 n m m1) (h2 : Swapped 0 n m1 m2) : m2 = m := by
  have hl := h2.len.trans h1.len
  have hv : m2.val = m.val := by
    funext x
    by_cases hx : x < 4 * n
    · have e : x = 4 * (x / 4) + x % 4 := by omega
      rw [e, h2.inside (x / 4) (x % 4) (by omega) (by omega) (by omega),
        h1.inside (x / 4) (3 - x % 4) (by omega) (by omega) (by omega)]
      congr 1; omega
    · rw [h2.outside x (by omega), h1.outside x (by omega)]
  cases m2; cases m; simp at hl hv; rw [hl, hv]

/-! ## Samples in and out of the block buffer -/

theorem samplesIn_spec {ns : Nat} (hns : 240 + 4 * ns < 2 ^ 63) (t : Arr Byte) (n : Nat) : ∀ (i : Nat) (buf : Arr Byte),
    4 * ns * (i + n) ≤ t.len → (240 + 4 * ns) * (i + n) ≤ buf.len →
    ∃ b', samplesIn ns t buf i n = .ok b' ∧ b'.len = buf.len ∧
      (∀ j x, i ≤ j → j < i + n → x < 4 * ns → b'.val ((240 + 4 * ns) * j + 240 + x) = t.val (4 * ns * j + x)) ∧
      ∀ x, (∀ j, i ≤ j → j < i + n → ¬ ((240 + 4 * ns) * j + 240 ≤ x ∧ x < (240 + 4 * ns) * j + (240 + 4 * ns))) →
        b'.val x = buf.val x := by
  induction n with
  | zero =>
    intro i buf _ _
    exact ⟨buf, rfl, rfl, fun j x h1 h2 => by omega, fun _ _ => rfl⟩
  | succ n ih =>
    intro i buf h1 h2
    have m1 := base_mono (w := 4 * ns) (show i < i + (n + 1) by omega)
    have m2 := base_mono (w := 240 + 4 * ns) (show i < i + (n + 1) by omega)
    obtain ⟨b1, a1, a2, a3, a4⟩ := Arr.copy_spec (4 * ns) t (4 * ns * i) buf ((240 + 4 * ns) * i + 240)
      (by omega) (by omega)
    obtain ⟨b', c1, c2, c3, c4⟩ := ih (i + 1) b1 (by rw [show i + 1 + n = i + (n + 1) by omega]; exact h1)
      (by rw [a2, show i + 1 + n = i + (n + 1) by omega]; exact h2)
    refine ⟨b', ?_, c2.trans a2, ?_, ?_⟩
    · unfold samplesIn
      rw [getDOSz_eq (by omega), getDFSz_eq (by omega), Nat.mul_comm i, Nat.mul_comm i]
      show (t.copy (4 * ns * i) buf ((240 + 4 * ns) * i + 240) (4 * ns) >>= _) = _
      rw [a1, Res.ok_bind, c1]
    · intro j x hj hj' hx
      by_cases hji : j = i
      · subst hji
        rw [c4, a4 x hx]
        intro k hk hk'
        have := base_mono (w := 240 + 4 * ns) (show j < k by omega)
        omega
      · exact c3 j x (by omega) (by omega) hx
    · intro x hx
      rw [c4 x fun j hj hj' => hx j (by omega) (by omega)]
      exact a3 x (by have := hx i (by omega) (by omega); omega)

theorem samplesOut_spec {ns : Nat} (hns : 240 + 4 * ns < 2 ^ 63) (buf : Arr Byte) (n : Nat) : ∀ (i : Nat) (t : Arr Byte),
    4 * ns * (i + n) ≤ t.len → (240 + 4 * ns) * (i + n) ≤ buf.len →
    ∃ t', samplesOut ns buf t i n = .ok t' ∧ t'.len = t.len ∧
      (∀ j x, i ≤ j → j < i + n → x < 4 * ns → t'.val (4 * ns * j + x) = buf.val ((240 + 4 * ns) * j + 240 + x)) ∧
      ∀ x, ¬ (4 * ns * i ≤ x ∧ x < 4 * ns * (i + n)) → t'.val x = t.val x := by
  induction n with
  | zero =>
    intro i t _ _
    exact ⟨t, rfl, rfl, fun j x h1 h2 => by omega, fun _ _ => rfl⟩
  | succ n ih =>
    intro i t h1 h2
    have m1 := base_mono (w := 4 * ns) (show i < i + (n + 1) by omega)
    have m2 := base_mono (w := 240 + 4 * ns) (show i < i + (n + 1) by omega)
    obtain ⟨t1, a1, a2, a3, a4⟩ := Arr.copy_spec (4 * ns) buf ((240 + 4 * ns) * i + 240) t (4 * ns * i)
      (by omega) (by omega)
    obtain ⟨t', c1, c2, c3, c4⟩ := ih (i + 1) t1 (by rw [a2, show i + 1 + n = i + (n + 1) by omega]; exact h1)
      (by rw [show i + 1 + n = i + (n + 1) by omega]; exact h2)
    refine ⟨t', ?_, c2.trans a2, ?_, ?_⟩
    · unfold samplesOut
      rw [getDOSz_eq (by omega), getDFSz_eq (by omega), Nat.mul_comm i, Nat.mul_comm i]
      show (buf.copy ((240 + 4 * ns) * i + 240) t (4 * ns * i) (4 * ns) >>= _) = _
      rw [a1, Res.ok_bind, c1]
    · intro j x hj hj' hx
      by_cases hji : j = i
      · subst hji
        rw [c4, a4 x hx]
        rw [Nat.mul_succ]
        omega
      · exact c3 j x (by omega) (by omega) hx
    · intro x hx
      rw [show i + 1 + n = i + (n + 1) by omega, Nat.mul_succ] at c4
      rw [c4 x (by omega)]
      exact a3 x (by omega)

/-! ## What is where -/

/-- Sample `i` of trace memory: the `float` at element `i` (little-endian). -/
def sample (m : Arr Byte) (i : Nat) : BitVec 32 :=
  fromBE32 (m.val (4 * i + 3)) (m.val (4 * i + 2)) (m.val (4 * i + 1)) (m.val (4 * i))

/-- Big-endian word of the file. -/
def dword (d : Disk) (a : Nat) : BitVec 32 := fromBE32 (d.byte a) (d.byte (a + 1)) (d.byte (a + 2)) (d.byte (a + 3))

/-- Sample `s` of trace `k` in the file. -/
def dsamp (d : Disk) (ns k s : Nat) : BitVec 32 := dword d (3600 + k * (240 + 4 * ns) + 240 + 4 * s)

/-- Header of trace `k` in the file. -/
def dhdr (d : Disk) (ns k : Nat) : Arr Byte := ⟨240, fun o => d.byte (3600 + k * (240 + 4 * ns) + o)⟩

/-- What `insertParam` needs of a parameter set. -/
structure PrmOk {F : Type} (ops : FloatOps F) (p : Param F) : Prop where
  wf : WF p
  layout : HdrLayout p.rule
  full : p.rule.fullextent = true
  start : p.rule.start = 0
  fs : ∀ x, x < p.f.len → ∃ s, ops.findScalar (p.f.val x) = .ok s
  en : ∀ x, x < p.f.len → ∀ s, ∃ n, ops.encode (p.f.val x) s = .ok n

/-- The header `h` holds the parameters of row `row`: named items, and the
other bytes are those of the raw header if kept, else zero. -/
structure Header {F : Type} (fs : F → BitVec 16) (en : F → BitVec 16 → BitVec 32) (p : Param F) (row : Nat)
    (h : Arr Byte) : Prop where
  items : Holds fs en p row 0 h
  rest : ∀ o, o < 240 → ¬ Named p.rule 0 o →
    h.val o = if p.rule.cnt .copy ≠ 0 then p.c.val (row * 240 + o) else 0#8

theorem Named.shift {r : Rule} {base o : Nat} : Named r base (base + o) ↔ Named r 0 o := by
  unfold Named
  constructor
  · rintro ⟨m, e, hm, ⟨hv, h1, h2⟩ | ⟨hv, h1, h2⟩⟩
    · exact ⟨m, e, hm, Or.inl ⟨hv, by omega, by omega⟩⟩
    · exact ⟨m, e, hm, Or.inr ⟨hv, by omega, by omega⟩⟩
  · rintro ⟨m, e, hm, ⟨hv, h1, h2⟩ | ⟨hv, h1, h2⟩⟩
    · exact ⟨m, e, hm, Or.inl ⟨hv, by omega, by omega⟩⟩
    · exact ⟨m, e, hm, Or.inr ⟨hv, by omega, by omega⟩⟩

/-- A header moved to position 0. -/
theorem Holds.move {F : Type} {fs : F → BitVec 16} {en : F → BitVec 16 → BitVec 32} {p : Param F}
    (hl : HdrLayout p.rule) {row base : Nat} {b h : Arr Byte} (hh : Holds fs en p row base b)
    (he : ∀ o, o < 240 → h.val o = b.val (base + o)) : Holds fs en p row 0 h := by
  have h2 : Holds fs en p row base ⟨base + 240, fun x => h.val (x - base)⟩ := by
    refine hh.congr hl fun x hx hx' => ?_
    show h.val (x - base) = _
    rw [he _ (by omega)]
    congr 1; omega
  intro m e hm
  obtain ⟨a1, a2, a3⟩ := h2 m e hm
  have c : ∀ y, base + y - base = y := fun y => by omega
  simp only [val16, val32, Nat.add_assoc, c] at a1 a2 a3
  simp only [val16, val32, Nat.zero_add]
  exact ⟨a1, a2, a3⟩

/-- The value of a call that succeeds. -/
def okVal {α : Type} (d : α) : Res α → α
  | .ok a => a
  | _ => d

/-- `find_scalar` and the integer conversion as functions. -/
abbrev fsOf {F : Type} (ops : FloatOps F) (v : F) : BitVec 16 := okVal 1#16 (ops.findScalar v)
abbrev enOf {F : Type} (ops : FloatOps F) (v : F) (s : BitVec 16) : BitVec 32 := okVal 0#32 (ops.encode v s)

theorem PrmOk.insert {F : Type} {ops : FloatOps F} {p : Param F} (h : PrmOk ops p) (sz stride skip : Nat)
    (hsz : sz + skip ≤ p.sz) (hb : (240 + stride) * sz < 2 ^ 63) :
    ∃ b', insertParam ops sz p (.fill ((240 + stride) * sz) 0#8) stride skip = .ok (b', p.rule) ∧
      b'.len = (240 + stride) * sz ∧
      (∀ t, t < sz → ∀ hd : Arr Byte, (∀ o, o < 240 → hd.val o = b'.val ((240 + stride) * t + o)) →
        Header (fsOf ops) (enOf ops) p (t + skip) hd) := by
  obtain ⟨b', e1, e2, e3, e4, -⟩ := insertParam_spec ops (fsOf ops) (enOf ops) p h.wf h.layout stride skip sz
    (fun x hx => by obtain ⟨s, hs⟩ := h.fs x hx; unfold fsOf; rw [hs]; rfl)
    (fun x hx s => by obtain ⟨s, hs⟩ := h.en x hx s; unfold enOf; rw [hs]; rfl) h.full h.start
    (.fill ((240 + stride) * sz) 0#8) hsz (Nat.le_refl _) (by show (240 + stride) * sz ≤ 2 ^ 64; omega)
  refine ⟨b', e1, e2, ?_⟩
  intro t ht hd hhd
  refine ⟨Holds.move h.layout (e3 t ht) hhd, ?_⟩
  intro o ho hn
  rw [hhd o ho, e4 t ht o ho (fun hc => hn (Named.shift.mp hc))]
  rfl

theorem words {d : Disk} {ns k s n i : Nat} {t t' : Arr Byte} (hs : Swapped 0 n t t') (hi : ns * i + s < n)
    (hx : ∀ r, r < 4 → d.byte (taddr ns k + 240 + (4 * s + r)) = t'.val (4 * ns * i + (4 * s + r))) :
    dsamp d ns k s = sample t (i * ns + s) := by
  have e : ∀ r, r < 4 → d.byte (taddr ns k + 240 + (4 * s + r)) = t.val (4 * (i * ns + s) + (3 - r)) := by
    intro r hr
    rw [hx r hr, show 4 * ns * i + (4 * s + r) = 4 * (ns * i + s) + r by rw [Nat.mul_assoc]; omega,
      hs.inside _ r (by omega) (by omega) hr, Nat.mul_comm i]
  unfold dsamp dword sample
  rw [show 3600 + k * (240 + 4 * ns) + 240 + 4 * s = taddr ns k + 240 + (4 * s + 0) by unfold taddr; omega]
  rw [e 0 (by omega), show taddr ns k + 240 + (4 * s + 0) + 1 = taddr ns k + 240 + (4 * s + 1) by omega,
    show taddr ns k + 240 + (4 * s + 0) + 2 = taddr ns k + 240 + (4 * s + 2) by omega,
    show taddr ns k + 240 + (4 * s + 0) + 3 = taddr ns k + 240 + (4 * s + 3) by omega,
    e 1 (by omega), e 2 (by omega), e 3 (by omega)]
  rfl

theorem row_lt {ns sz i s : Nat} (hi : i < sz) (hs : s < ns) : ns * i + s < ns * sz := by
  have := base_mono (w := ns) hi; omega

theorem write_spec {F : Type} (ops : FloatOps F) (ns : Nat) (w : Where) (sz : Nat) (trc : Option (Arr Byte))
    (prm : Option (Param F)) (skip : Nat) (d : Disk) (N : Nat) (h : Small ns w sz N) (hi : Inc w sz)
    (ht : ∀ t, trc = some t → 4 * (ns * sz) ≤ t.len ∧ t.len ≤ 2 ^ 63)
    (hp : ∀ p, prm = some p → PrmOk ops p ∧ sz + skip ≤ p.sz) (hnn : trc ≠ none ∨ prm ≠ none) :
    ∃ d', writeTraceT ops ns w sz trc prm skip d = .ok (d', trc) ∧
      (∀ t, trc = some t → ∀ i s, i < sz → s < ns → dsamp d' ns (w.trace i) s = sample t (i * ns + s)) ∧
      (∀ p, prm = some p → ∀ i, i < sz → Header (fsOf ops) (enOf ops) p (i + skip) (dhdr d' ns (w.trace i))) ∧
      (∀ x, (∀ i, i < sz → (prm ≠ none → ¬ (taddr ns (w.trace i) ≤ x ∧ x < taddr ns (w.trace i) + 240)) ∧
          (trc ≠ none → ¬ (taddr ns (w.trace i) + 240 ≤ x ∧ x < taddr ns (w.trace i) + 240 + 4 * ns))) →
        d'.byte x = d.byte x) ∧
      d.size ≤ d'.size ∧ (d'.size = d.size ∨ ∃ i, i < sz ∧ d'.size ≤ taddr ns (w.trace i) + (240 + 4 * ns)) ∧
      (∀ i, i < sz → (prm ≠ none → taddr ns (w.trace i) + 240 ≤ d'.size) ∧
        (trc ≠ none → 0 < ns → taddr ns (w.trace i) + 240 + 4 * ns ≤ d'.size)) := by
  have hbytes := h.bytes
  have hmul : mul64 ns sz = ns * sz := by
    refine mul64_eq ?_
    have : ns * sz ≤ (240 + 4 * ns) * sz := Nat.mul_le_mul_right _ (by omega)
    omega
  cases trc with
  | none =>
    cases prm with
    | none => simp at hnn
    | some p =>
      obtain ⟨hpo, hsz⟩ := hp p rfl
      have h240 : (240 + 0) * sz < 2 ^ 63 := by
        have : 240 * sz ≤ (240 + 4 * ns) * sz := Nat.mul_le_mul_right _ (by omega)
        omega
      obtain ⟨b', e1, e2, e3⟩ := hpo.insert sz 0 skip hsz h240
      obtain ⟨d', f1, f2, f3, f4, f5, f6⟩ := put_blocks (reqMD_blocks h) (hi.sep (ns := ns) (by omega) 0) b' d
        (by rw [e2]; omega)
      refine ⟨d', ?_, by simp, ?_, ?_, f4, ?_, ?_⟩
      · unfold writeTraceT onTrace writeOut
        simp only [Res.ok_bind]
        have : alloc (mul64 getMDSz sz) = .ok (.fill ((240 + 0) * sz) 0#8) := by
          unfold alloc getMDSz
          rw [mul64_eq (by omega), if_pos (by omega)]
        rw [this, Res.ok_bind, show sub64 getMDSz getMDSz = 0 by decide, e1, Res.ok_bind]
        simp only
        rw [send_MD h hi, f1, Res.ok_bind]
      · intro q hq i hi'
        cases hq
        refine e3 i hi' _ fun o ho => ?_
        have := f2 i o hi' ho
        show d'.byte (taddr ns (w.trace i) + o) = _
        rw [this]
      · intro x hx
        exact f3 x fun i hi' => (hx i hi').1 (by simp)
      · rcases f6 with f6 | ⟨i, hi', f6⟩
        · exact Or.inl f6
        · exact Or.inr ⟨i, hi', by omega⟩
      · intro i hi'
        exact ⟨fun _ => f5 i hi' (by omega), fun hc => absurd rfl hc⟩
  | some t =>
    obtain ⟨ht1, ht2⟩ := ht t rfl
    obtain ⟨t1, g1, g2⟩ := toFile_spec (ns * sz) 0 t (by simpa using ht1) (by omega)
    obtain ⟨t2, k1, k2⟩ := fromFile_spec (ns * sz) 0 t1 (by rw [g2.len]; simpa using ht1) (by rw [g2.len]; omega)
    have hback := g2.twice k2
    subst hback
    have hlen : 4 * ns * sz ≤ t1.len := by rw [g2.len, Nat.mul_assoc]; exact ht1
    cases prm with
    | none =>
      obtain ⟨d', f1, f2, f3, f4, f5, f6⟩ := put_blocks (reqDF_blocks h) (hi.sep (ns := ns) (by omega) 240) t1 d hlen
      refine ⟨d', ?_, ?_, by simp, ?_, f4, ?_, ?_⟩
      · unfold writeTraceT onTrace writeOut
        simp only [hmul]
        rw [g1, Res.ok_bind, Res.ok_bind]
        simp only [Option.getD_some]
        rw [send_DF h hi, f1, Res.ok_bind, k1, Res.ok_bind, Res.ok_bind]
      · intro t' ht' i s hi' hs
        cases ht'
        refine words g2 (row_lt hi' hs) fun r hr => ?_
        exact f2 i (4 * s + r) hi' (by omega)
      · intro x hx
        exact f3 x fun i hi' => (hx i hi').2 (by simp)
      · rcases f6 with f6 | ⟨i, hi', f6⟩
        · exact Or.inl f6
        · exact Or.inr ⟨i, hi', by omega⟩
      · intro i hi'
        exact ⟨fun hc => absurd rfl hc, fun _ hn => f5 i hi' (by omega)⟩
    | some p =>
      obtain ⟨hpo, hsz⟩ := hp p rfl
      by_cases hz : sz = 0
      · subst hz
        refine ⟨d, ?_, fun _ _ i s h1 => by omega, fun _ _ i h1 => by omega, fun _ _ => rfl, Nat.le_refl _,
          Or.inl rfl, fun i h1 => by omega⟩
        unfold writeTraceT onTrace writeOut
        simp only [hmul]
        rw [g1, Res.ok_bind, Res.ok_bind]
        have : alloc (mul64 (getDOSz ns) 0) = .ok (.fill 0 0#8) := by
          simp [alloc, mul64]
        simp only [this, Res.ok_bind, insertParam, if_pos, samplesIn]
        obtain ⟨d', f1, f2, f3, f4, f5, f6⟩ := put_blocks (reqDO_blocks h) (hi.sep (ns := ns) (by omega) 0)
          (Arr.fill 0 0#8) d (by simp)
        rw [send_DO h hi]
        have hnil : (reqDO ns w 0).flatMap DataIO.Op.wanted = [] := by
          cases w <;> simp [reqDO, DataIO.Op.wanted, mul64]
        rw [hnil]
        simp only [put, Res.ok_bind]
        rw [k1, Res.ok_bind, Res.ok_bind]
      have hns := h.ns_lt (by omega)
      obtain ⟨b', e1, e2, e3⟩ := hpo.insert sz (4 * ns) skip hsz hbytes
      obtain ⟨b2, s1, s2, s3, s4⟩ := samplesIn_spec hns t1 sz 0 b' (by simpa using hlen) (by rw [e2]; simp)
      obtain ⟨d', f1, f2, f3, f4, f5, f6⟩ := put_blocks (reqDO_blocks h) (hi.sep (ns := ns) (by omega) 0) b2 d
        (by rw [s2, e2]; omega)
      refine ⟨d', ?_, ?_, ?_, ?_, f4, ?_, ?_⟩
      · unfold writeTraceT onTrace writeOut
        simp only [hmul]
        rw [g1, Res.ok_bind, Res.ok_bind]
        simp only
        have : alloc (mul64 (getDOSz ns) sz) = .ok (.fill ((240 + 4 * ns) * sz) 0#8) := by
          unfold alloc
          rw [getDOSz_eq (by omega), mul64_eq (by omega), if_pos (by omega)]
        rw [this, Res.ok_bind, getDOSz_eq (by omega), show sub64 (240 + 4 * ns) getMDSz = 4 * ns by
          unfold getMDSz; rw [sub64_eq (by omega) (by omega)]; omega, e1, Res.ok_bind]
        simp only
        rw [s1, Res.ok_bind, send_DO h hi, f1, Res.ok_bind, k1, Res.ok_bind, Res.ok_bind]
      · intro t' ht' i s hi' hs
        cases ht'
        refine words g2 (row_lt hi' hs) fun r hr => ?_
        have := f2 i (240 + (4 * s + r)) hi' (by omega)
        show d'.byte (taddr ns (w.trace i) + 240 + (4 * s + r)) = _
        rw [Nat.add_assoc, this, ← Nat.add_assoc]
        exact s3 i (4 * s + r) (by omega) (by omega) (by omega)
      · intro q hq i hi'
        cases hq
        refine e3 i hi' _ fun o ho => ?_
        have := f2 i o hi' (by omega)
        show d'.byte (taddr ns (w.trace i) + o) = _
        rw [this]
        refine s4 _ fun j _ hj hc => ?_
        rcases Nat.lt_trichotomy i j with hij | hij | hij
        · have := base_mono (w := 240 + 4 * ns) hij; omega
        · subst hij; omega
        · have := base_mono (w := 240 + 4 * ns) hij; omega
      · intro x hx
        refine f3 x fun i hi' hc => ?_
        have h1 := (hx i hi').1 (by simp)
        have h2 := (hx i hi').2 (by simp)
        omega
      · rcases f6 with f6 | ⟨i, hi', f6⟩
        · exact Or.inl f6
        · exact Or.inr ⟨i, hi', by omega⟩
      · intro i hi'
        have := f5 i hi' (by omega)
        exact ⟨fun _ => by omega, fun _ _ => by omega⟩

/-! ## Reading -/

/-- What `extractParam` and the setting of the trace number need. -/
structure RdOk {F : Type} (q : Param F) : Prop where
  wf : WF q
  layout : HdrLayout q.rule
  full : q.rule.fullextent = true
  start : q.rule.start = 0
  ltn : ∃ e, (ltn, some e) ∈ q.rule.map ∧ e.kind = .index

theorem getEntry_of_mem {r : Rule} (hr : Inv r) {m : Nat} {e : Entry} (h : (m, some e) ∈ r.map) :
    (getEntry r m).2 = some e := by
  unfold getEntry
  rw [find_of_mem hr.keys h]

theorem setLtn_spec {F : Type} (cv : Conv F (BitVec 64)) (hcv : ∀ v, cv.toT v = v) (w : Where) (skip n : Nat)
    {e : Entry} (hk : e.kind = .index) : ∀ (i : Nat) (p : Param F), WF p → (ltn, some e) ∈ p.rule.map →
    i + n + skip ≤ p.sz →
    ∃ t', setLtn cv w skip p i n = .ok { p with t := t' } ∧ t'.len = p.t.len ∧
      (∀ j, i ≤ j → j < i + n → t'.val (p.rule.cnt .index * (j + skip) + e.num) = BitVec.ofNat 64 (w.trace j)) ∧
      ∀ x, (∀ j, i ≤ j → j < i + n → x ≠ p.rule.cnt .index * (j + skip) + e.num) → t'.val x = p.t.val x := by
  induction n with
  | zero =>
    intro i p _ _ _
    exact ⟨p.t, rfl, rfl, fun j h1 h2 => by omega, fun _ _ => rfl⟩
  | succ n ih =>
    intro i p hp hm hsz
    have hlt := num_lt hp.inv hm
    rw [hk] at hlt
    have hidx : p.rule.cnt .index * (i + skip) + e.num < p.t.len := by
      rw [hp.t]; exact idx_lt hlt (by omega)
    have hset : setPrm cv (i + skip) ltn (BitVec.ofNat 64 (w.trace i)) p = .ok { p with
        t := { p.t with val := fun j =>
                if j = p.rule.cnt .index * (i + skip) + e.num then BitVec.ofNat 64 (w.trace i) else p.t.val j } } := by
      unfold setPrm
      rw [getEntry_of_mem hp.inv hm]
      simp only [hk]
      rw [Arr.set_ok hidx, Res.ok_bind, hcv]
    obtain ⟨t', h1, h2, h3, h4⟩ := ih (i + 1) { p with
        t := { p.t with val := fun j =>
                if j = p.rule.cnt .index * (i + skip) + e.num then BitVec.ofNat 64 (w.trace i) else p.t.val j } } ⟨hp.inv, hp.f, hp.i, hp.s, hp.t, hp.c⟩ hm
        (by show i + 1 + n + skip ≤ p.sz; omega)
    refine ⟨t', by unfold setLtn; rw [hset, Res.ok_bind, h1], h2, ?_, ?_⟩
    · intro j hj hj'
      by_cases hji : j = i
      · subst hji
        rw [h4]
        · simp
        · intro k hk1 hk2 he
          have := idx_inj hlt hlt he
          omega
      · exact h3 j (by omega) (by omega)
    · intro x hx
      rw [h4 x fun j hj hj' => hx j (by omega) (by omega)]
      have := hx i (by omega) (by omega)
      simp [this]

/-- What a read leaves in the caller's parameters: rows `skip` to `skip + sz`
hold the headers of the traces, the trace number and (if kept) the raw header;
the other rows are as before. -/
structure RowsRead {F : Type} (ops : FloatOps F) (d : Disk) (ns : Nat) (w : Where) (sz skip : Nat)
    (q q' : Param F) : Prop where
  wf : WF q'
  rule : q'.rule = q.rule
  size : q'.sz = q.sz
  dec : ∀ i, i < sz → Decoded ops (dhdr d ns (w.trace i)) (i + skip) 0 q' q.rule.map
  number : ∀ i e, i < sz → (ltn, some e) ∈ q.rule.map →
    q'.t.val (q.rule.cnt .index * (i + skip) + e.num) = BitVec.ofNat 64 (w.trace i)
  raw : q.rule.cnt .copy ≠ 0 → ∀ i, i < sz → ∀ o, o < 240 →
    q'.c.val ((i + skip) * 240 + o) = (dhdr d ns (w.trace i)).val o
  rows : ∀ row m e, (m, some e) ∈ q.rule.map → row < q.sz → ¬ (skip ≤ row ∧ row < sz + skip) →
    item q' row e = item q row e
  others : ∀ row m e, (m, some e) ∈ q.rule.map → e.kind = .index → m ≠ ltn → item q' row e = item q row e

theorem Decoded.move {F : Type} {ops : FloatOps F} {b h : Arr Byte} {row base : Nat} {q : Param F} {r : Rule}
    (hl : HdrLayout r) (hd : Decoded ops b row base q r.map) (he : ∀ o, o < 240 → h.val o = b.val (base + o)) :
    Decoded ops h row 0 q r.map := by
  intro m e hm
  obtain ⟨h1, h2, h3⟩ := hd m e hm
  have c16 : ∀ loc, 1 ≤ loc → loc + 2 ≤ 241 → val16 b (base + (loc - 1)) = val16 h (0 + (loc - 1)) := by
    intro loc h1 h2
    unfold val16
    rw [he _ (by omega), he _ (by omega), Nat.zero_add, Nat.add_assoc]
  have c32 : ∀ loc, 1 ≤ loc → loc + 4 ≤ 241 → val32 b (base + (loc - 1)) = val32 h (0 + (loc - 1)) := by
    intro loc h1 h2
    unfold val32
    rw [he _ (by omega), he _ (by omega), he _ (by omega), he _ (by omega), Nat.zero_add, Nat.add_assoc,
      Nat.add_assoc, Nat.add_assoc]
  refine ⟨fun hk => ?_, fun hk => ?_, fun hk => ?_⟩
  · have := hl.fits m e hm (by simp [Valued, hk])
    rw [hk] at this
    rw [← c16 _ this.1 this.2]; exact h1 hk
  · have := hl.fits m e hm (by simp [Valued, hk])
    rw [hk] at this
    rw [← c32 _ this.1 this.2]; exact h2 hk
  · have f1 := hl.fits m e hm (by simp [Valued, hk])
    have f2 := hl.sfits m e hm hk
    rw [hk] at f1
    rw [← c16 _ f2.1 f2.2, ← c32 _ f1.1 f1.2]; exact h3 hk

theorem extract_rows {F : Type} (ops : FloatOps F) (cv : Conv F (BitVec 64)) (hcv : ∀ v, cv.toT v = v) (d : Disk)
    (ns : Nat) (w : Where) (sz stride skip : Nat) (q : Param F) (hq : RdOk q) (hsz : sz + skip ≤ q.sz)
    (buf : Arr Byte) (hb : (240 + stride) * sz ≤ buf.len) (hb' : buf.len ≤ 2 ^ 64)
    (hd : ∀ i, i < sz → ∀ o, o < 240 → (dhdr d ns (w.trace i)).val o = buf.val ((240 + stride) * i + o)) :
    ∃ q1 q', extractParam ops sz buf 0 q stride skip = .ok q1 ∧ setLtn cv w skip q1 0 sz = .ok q' ∧
      RowsRead ops d ns w sz skip q q' := by
  obtain ⟨q1, f1, f2, f3, f4, f5, f6, f7, f8⟩ := extractParam_spec ops buf 0 sz stride skip q hq.wf hq.layout hq.full
    hq.start hsz (by omega) hb'
  have hwf := f2.wf hq.wf f3
  obtain ⟨e, he, hk⟩ := hq.ltn
  obtain ⟨t', g1, g2, g3, g4⟩ := setLtn_spec cv hcv w skip sz hk 0 q1 hwf (by rw [f2.rule]; exact he)
    (by rw [f2.sz]; omega)
  refine ⟨q1, _, f1, g1, ⟨⟨hwf.inv, hwf.f, hwf.i, hwf.s, by show t'.len = _; rw [g2]; exact hwf.t, hwf.c⟩, f2.rule,
    f2.sz, ?_, ?_, ?_, ?_, ?_⟩⟩
  · intro i hi
    have := f4 i hi
    rw [Nat.zero_add] at this
    exact Decoded.move hq.layout this (hd i hi)
  · intro i e' hi he'
    have : e' = e := by
      have h1 := find_of_mem hq.wf.inv.keys he
      have h2 := find_of_mem hq.wf.inv.keys he'
      rw [h1] at h2; cases h2; rfl
    subst this
    have := g3 i (by omega) (by omega)
    rw [f2.rule] at this
    exact this
  · intro hc i hi o ho
    show q1.c.val _ = _
    rw [f8 hc i hi o ho, hd i hi o ho, Nat.zero_add]
  · intro row m e' hm hrow hne
    cases hk' : e'.kind with
    | float =>
      simp only [item, hk', f2.rule]
      rw [Nat.mul_comm, f5.2.2 _ fun row' m' e'' h1 h2 h3 h4 => row_ne hq.wf.inv hm h3 hk' h4 (by omega)]
    | long =>
      simp only [item, hk', f2.rule]
      rw [Nat.mul_comm, f5.2.1 _ fun row' m' e'' h1 h2 h3 h4 => row_ne hq.wf.inv hm h3 hk' h4 (by omega)]
    | short =>
      simp only [item, hk', f2.rule]
      rw [Nat.mul_comm, f5.1 _ fun row' m' e'' h1 h2 h3 h4 => row_ne hq.wf.inv hm h3 hk' h4 (by omega)]
    | index =>
      simp only [item, hk', f2.rule]
      rw [g4, f2.t]
      intro j hj hj'
      rw [f2.rule]
      exact idx_ne hq.wf.inv hm he hk' hk (by omega)
    | copy =>
      simp only [item, hk']
      congr 4
      apply List.map_congr_left
      intro o ho
      rw [List.mem_range] at ho
      refine f7 _ fun t ht hc => ?_
      have : row < t + skip ∨ t + skip < row := by omega
      rcases this with h | h
      · have := base_mono (w := 240) h; omega
      · have := base_mono (w := 240) h; omega
  · intro row m e' hm hk' hne
    simp only [item, hk', f2.rule]
    rw [g4, f2.t]
    intro j hj hj'
    rw [f2.rule]
    exact idx_ne hq.wf.inv hm he hk' hk (by intro h; exact hne h.2)

theorem words_back {d : Disk} {ns k s n i : Nat} {t t' : Arr Byte} (hs : Swapped 0 n t t') (hi : ns * i + s < n)
    (hx : ∀ r, r < 4 → t.val (4 * ns * i + (4 * s + r)) = d.byte (taddr ns k + 240 + (4 * s + r))) :
    sample t' (i * ns + s) = dsamp d ns k s := by
  have e : ∀ r, r < 4 → t'.val (4 * (i * ns + s) + r) = d.byte (taddr ns k + 240 + (4 * s + (3 - r))) := by
    intro r hr
    rw [hs.inside _ r (by omega) (by rw [Nat.mul_comm]; omega) hr, ← hx (3 - r) (by omega), Nat.mul_comm i]
    congr 1; rw [Nat.mul_assoc]; omega
  unfold dsamp dword sample
  rw [show 3600 + k * (240 + 4 * ns) + 240 + 4 * s = taddr ns k + 240 + (4 * s + 0) by unfold taddr; omega]
  rw [e 3 (by omega), e 2 (by omega), e 1 (by omega), show 4 * (i * ns + s) = 4 * (i * ns + s) + 0 by omega,
    e 0 (by omega), show taddr ns k + 240 + (4 * s + 0) + 1 = taddr ns k + 240 + (4 * s + 1) by omega,
    show taddr ns k + 240 + (4 * s + 0) + 2 = taddr ns k + 240 + (4 * s + 2) by omega,
    show taddr ns k + 240 + (4 * s + 0) + 3 = taddr ns k + 240 + (4 * s + 3) by omega]

/-- What a read leaves in the caller's trace memory. -/
structure SamplesRead (d : Disk) (ns : Nat) (w : Where) (sz : Nat) (t t' : Arr Byte) : Prop where
  len : t'.len = t.len
  samples : ∀ i s, i < sz → s < ns → sample t' (i * ns + s) = dsamp d ns (w.trace i) s
  rest : ∀ x, 4 * (ns * sz) ≤ x → t'.val x = t.val x

theorem read_spec {F : Type} (ops : FloatOps F) (cv : Conv F (BitVec 64)) (hcv : ∀ v, cv.toT v = v) (ns : Nat)
    (w : Where) (sz : Nat) (trc : Option (Arr Byte)) (prm : Option (Param F)) (skip : Nat) (d : Disk) (N : Nat)
    (h : Small ns w sz N) (hi : Ndec w sz) (hd : ∀ i, i < sz → taddr ns (w.trace i) + (240 + 4 * ns) ≤ d.size)
    (ht : ∀ t, trc = some t → 4 * (ns * sz) ≤ t.len ∧ t.len ≤ 2 ^ 63)
    (hp : ∀ p, prm = some p → RdOk p ∧ sz + skip ≤ p.sz) (hnn : trc ≠ none ∨ prm ≠ none) :
    ∃ t' p', readTraceT ops cv false ns w sz trc prm skip d = .ok (t', p') ∧
      (trc = none → t' = none) ∧ (prm = none → p' = none) ∧
      (∀ t, trc = some t → ∃ t1, t' = some t1 ∧ SamplesRead d ns w sz t t1) ∧
      (∀ q, prm = some q → ∃ q1, p' = some q1 ∧ RowsRead ops d ns w sz skip q q1) := by
  have hbytes := h.bytes
  have hmul : mul64 ns sz = ns * sz := by
    refine mul64_eq ?_
    have : ns * sz ≤ (240 + 4 * ns) * sz := Nat.mul_le_mul_right _ (by omega)
    omega
  have h240 : 240 * sz < 2 ^ 63 := by
    have : 240 * sz ≤ (240 + 4 * ns) * sz := Nat.mul_le_mul_right _ (by omega)
    omega
  cases trc with
  | none =>
    cases prm with
    | none => simp at hnn
    | some q =>
      obtain ⟨hq, hsz⟩ := hp q rfl
      obtain ⟨b, f1, f2, f3, -⟩ := fetch_blocks (reqMD_blocks h) (.fill (240 * sz) 0#8) d (Nat.le_refl _)
        (fun i hi' => by have := hd i hi'; omega)
      obtain ⟨q1, q', e1, e2, e3⟩ := extract_rows ops cv hcv d ns w sz 0 skip q hq hsz b
        (by rw [f2]; exact Nat.le_refl _) (by rw [f2]; show 240 * sz ≤ _; omega)
        (fun i hi' o ho => (f3 i o hi' ho).symm)
      refine ⟨none, some q', ?_, fun _ => rfl, fun hc => by simp at hc, fun t hc => by simp at hc,
        fun q2 hq2 => by cases hq2; exact ⟨q', rfl, e3⟩⟩
      unfold readTraceT readIn readReqs
      have : alloc (mul64 getMDSz sz) = .ok (.fill (240 * sz) 0#8) := by
        unfold alloc getMDSz
        rw [mul64_eq (by omega), if_pos (by omega)]
      simp only [if_true, Bool.false_eq_true, if_false]
      rw [this, Res.ok_bind, recv_MD h hi, f1, Res.ok_bind, e1, Res.ok_bind, e2, Res.ok_bind]
      rfl
  | some t =>
    obtain ⟨ht1, ht2⟩ := ht t rfl
    have hlen : 4 * ns * sz ≤ t.len := by rw [Nat.mul_assoc]; exact ht1
    cases prm with
    | none =>
      obtain ⟨t1, f1, f2, f3, f4⟩ := fetch_blocks (reqDF_blocks h) t d hlen
        (fun i hi' => by have := hd i hi'; show taddr ns _ + 240 + 4 * ns ≤ _; omega)
      obtain ⟨t2, k1, k2⟩ := fromFile_spec (ns * sz) 0 t1 (by rw [f2]; simpa using ht1) (by rw [f2]; omega)
      refine ⟨some t2, none, ?_, fun hc => by simp at hc, fun _ => rfl, fun t' ht' => ?_, fun q hc => by simp at hc⟩
      · unfold readTraceT readIn onTrace readReqs
        simp only [if_true, Bool.false_eq_true, if_false]
        rw [recv_DF h hi, f1, Res.ok_bind, Res.ok_bind]
        simp only [hmul]
        rw [k1, Res.ok_bind, Res.ok_bind]
      · cases ht'
        refine ⟨t2, rfl, k2.len.trans f2, ?_, ?_⟩
        · intro i s hi' hs
          refine words_back k2 (row_lt hi' hs) fun r hr => ?_
          exact f3 i (4 * s + r) hi' (by omega)
        · intro x hx
          rw [k2.outside x (by omega), f4 x (by rw [Nat.mul_assoc]; exact hx)]
    | some q =>
      obtain ⟨hq, hsz⟩ := hp q rfl
      have hDO : alloc (mul64 (getDOSz ns) sz) = .ok (.fill ((240 + 4 * ns) * sz) 0#8) := by
        rcases Nat.eq_zero_or_pos sz with hz | hz
        · subst hz; simp [alloc, mul64]
        · have hns := h.ns_lt hz
          unfold alloc
          rw [getDOSz_eq (by omega), mul64_eq (by omega), if_pos (by omega)]
      obtain ⟨b, f1, f2, f3, -⟩ := fetch_blocks (reqDO_blocks h) (.fill ((240 + 4 * ns) * sz) 0#8) d (Nat.le_refl _)
        (fun i hi' => hd i hi')
      have f2 : b.len = (240 + 4 * ns) * sz := f2
      obtain ⟨q1, q', e1, e2, e3⟩ := extract_rows ops cv hcv d ns w sz (4 * ns) skip q hq hsz b (by rw [f2]; exact Nat.le_refl _)
        (by rw [f2]; omega) (fun i hi' o ho => (f3 i o hi' (by omega)).symm)
      have hs : ∃ t1, samplesOut ns b t 0 sz = .ok t1 ∧ t1.len = t.len ∧
          (∀ j x, j < sz → x < 4 * ns → t1.val (4 * ns * j + x) = b.val ((240 + 4 * ns) * j + 240 + x)) ∧
          (∀ x, 4 * ns * sz ≤ x → t1.val x = t.val x) := by
        rcases Nat.eq_zero_or_pos sz with hz | hz
        · subst hz
          exact ⟨t, rfl, rfl, fun j x h1 => by omega, fun _ _ => rfl⟩
        · obtain ⟨t1, s1, s2, s3, s4⟩ := samplesOut_spec (h.ns_lt hz) b sz 0 t (by simpa using hlen) (by rw [f2]; simp)
          exact ⟨t1, s1, s2, fun j x h1 h2 => s3 j x (by omega) (by omega) h2, fun x hx => s4 x (by simp; omega)⟩
      obtain ⟨t1, s1, s2, s3, s4⟩ := hs
      obtain ⟨t2, k1, k2⟩ := fromFile_spec (ns * sz) 0 t1 (by rw [s2]; simpa using ht1) (by rw [s2]; omega)
      have hDF : extractParam ops sz b 0 q (getDFSz ns) skip = .ok q1 := by
        rcases Nat.eq_zero_or_pos sz with hz | hz
        · subst hz; rw [← e1]; simp [extractParam]
        · have hns := h.ns_lt hz
          rw [getDFSz_eq (by omega), e1]
      refine ⟨some t2, some q', ?_, fun hc => by simp at hc, fun hc => by simp at hc, fun t' ht' => ?_,
        fun q2 hq2 => by cases hq2; exact ⟨q', rfl, e3⟩⟩
      · unfold readTraceT readIn onTrace readReqs
        simp only [if_true, Bool.false_eq_true, if_false]
        rw [hDO, Res.ok_bind, recv_DO h hi, f1, Res.ok_bind, s1, Res.ok_bind, hDF, Res.ok_bind, e2, Res.ok_bind,
          Res.ok_bind]
        simp only [hmul]
        rw [k1, Res.ok_bind, Res.ok_bind]
      · cases ht'
        refine ⟨t2, rfl, k2.len.trans s2, ?_, ?_⟩
        · intro i s hi' hs
          refine words_back k2 (row_lt hi' hs) fun r hr => ?_
          rw [s3 i (4 * s + r) hi' (by omega)]
          have := f3 i (240 + (4 * s + r)) hi' (by omega)
          rw [show (240 + 4 * ns) * i + 240 + (4 * s + r) = (240 + 4 * ns) * i + (240 + (4 * s + r)) by
            rw [Nat.add_assoc], this, ← Nat.add_assoc (taddr ns _)]
        · intro x hx
          rw [k2.outside x (by omega), s4 x (by rw [Nat.mul_assoc]; exact hx)]

end Verif.Files
