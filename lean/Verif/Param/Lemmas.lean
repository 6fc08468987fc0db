import Verif.Param.Model
import Verif.Rule.Lemmas
import Verif.Endian.Lemmas
/-!
# Lemmas about parameter storage and header conversion
-/
namespace Verif.Params
open Verif.Rules Verif.Endian

/-- Storage matches the rule. -/
structure WF {F : Type} (p : Param F) : Prop where
  inv : Inv p.rule
  f : p.f.len = p.sz * p.rule.cnt .float
  i : p.i.len = p.sz * p.rule.cnt .long
  s : p.s.len = p.sz * p.rule.cnt .short
  t : p.t.len = p.sz * p.rule.cnt .index
  c : p.c.len = p.sz * (if p.rule.cnt .copy ≠ 0 then 240 else 0)

theorem mk_wf {F : Type} (zero : F) {r : Rule} (hr : Inv r) (sz : Nat) : WF (mk zero r sz) :=
  ⟨hr, rfl, rfl, rfl, rfl, rfl⟩

theorem slot_inj {k : Kind} {l : Map} (h : (nums k l).Nodup) {p q : Nat × Option Entry} {n : Nat}
    (hp : p ∈ l) (hq : q ∈ l) (h1 : slot k p = some n) (h2 : slot k q = some n) : p = q := by
  induction l with
  | nil => simp at hp
  | cons x xs ih =>
    have hx : ∀ y ∈ xs, slot k y = some n → n ∈ nums k xs := fun y hy hs =>
      List.mem_filterMap.mpr ⟨y, hy, hs⟩
    unfold nums at h ih
    rcases List.mem_cons.mp hp with rfl | hp' <;> rcases List.mem_cons.mp hq with rfl | hq'
    · rfl
    · rw [List.filterMap_cons_some h1, List.nodup_cons] at h
      exact absurd (hx q hq' h2) h.1
    · rw [List.filterMap_cons_some h2, List.nodup_cons] at h
      exact absurd (hx p hp' h1) h.1
    · refine ih ?_ hp' hq'
      cases hs : slot k x with
      | none => rwa [List.filterMap_cons_none hs] at h
      | some w => rw [List.filterMap_cons_some hs, List.nodup_cons] at h; exact h.2

theorem slot_self (m : Nat) (e : Entry) : slot e.kind (m, some e) = some e.num := by
  simp [slot]

/-- Different items of one kind have different slots. -/
theorem num_inj {r : Rule} (hr : Inv r) {m m' : Nat} {e e' : Entry} (h : (m, some e) ∈ r.map)
    (h' : (m', some e') ∈ r.map) (hk : e.kind = e'.kind) (hn : e.num = e'.num) : m = m' := by
  have := slot_inj (hr.nodup e.kind) h h' (slot_self m e) (by rw [hk, hn]; exact slot_self m' e')
  exact (Prod.mk.injEq .. ▸ this).1

theorem num_lt {r : Rule} (hr : Inv r) {m : Nat} {e : Entry} (h : (m, some e) ∈ r.map) :
    e.num < r.cnt e.kind :=
  hr.lt _ _ (List.mem_filterMap.mpr ⟨_, h, slot_self m e⟩)

theorem idx_lt {n i num sz : Nat} (hn : num < n) (hi : i < sz) : n * i + num < sz * n := by
  have := Nat.mul_le_mul_left n (Nat.succ_le_of_lt hi)
  rw [Nat.mul_succ] at this
  rw [Nat.mul_comm sz n]; omega

theorem idx_inj {n i i' num num' : Nat} (hn : num < n) (hn' : num' < n)
    (h : n * i + num = n * i' + num') : i = i' ∧ num = num' := by
  have h1 : (n * i + num) / n = i := by
    rw [Nat.mul_add_div (by omega), Nat.div_eq_of_lt hn]; rfl
  have h2 : (n * i' + num') / n = i' := by
    rw [Nat.mul_add_div (by omega), Nat.div_eq_of_lt hn']; rfl
  have hi : i = i' := by rw [← h1, ← h2, h]
  subst hi
  exact ⟨rfl, by omega⟩

/-! ## Bytes -/

/-- Big-endian 16-bit value at `a`. -/
def val16 (b : Arr Byte) (a : Nat) : BitVec 16 := fromBE16 (b.val a) (b.val (a + 1))
/-- Big-endian 32-bit value at `a`. -/
def val32 (b : Arr Byte) (a : Nat) : BitVec 32 :=
  fromBE32 (b.val a) (b.val (a + 1)) (b.val (a + 2)) (b.val (a + 3))

theorem rd_ok {b : Arr Byte} {a : Nat} (h : a < b.len) (hl : b.len ≤ 2 ^ 64) :
    rd b a = .ok (b.val a) := by
  unfold rd; rw [Nat.mod_eq_of_lt (by omega), Arr.get_ok h]

theorem rd16_ok {b : Arr Byte} {a : Nat} (h : a + 2 ≤ b.len) (hl : b.len ≤ 2 ^ 64) :
    rd16 b a = .ok (val16 b a) := by
  unfold rd16; rw [rd_ok (by omega) hl, rd_ok (by omega) hl]; rfl

theorem rd32_ok {b : Arr Byte} {a : Nat} (h : a + 4 ≤ b.len) (hl : b.len ≤ 2 ^ 64) :
    rd32 b a = .ok (val32 b a) := by
  unfold rd32; rw [rd_ok (by omega) hl, rd_ok (by omega) hl, rd_ok (by omega) hl, rd_ok (by omega) hl]; rfl

theorem val16_of_bytes {b : Arr Byte} {a : Nat} {v : BitVec 16}
    (h : ∀ j (hj : j < (toBESigned 2 v).length), b.val (a + j) = (toBESigned 2 v)[j]) : val16 b a = v := by
  have h0 := h 0 (by simp [toBESigned])
  have h1 := h 1 (by simp [toBESigned])
  unfold val16
  rw [Nat.add_zero] at h0
  rw [h0, h1]
  apply BitVec.eq_of_toNat_eq
  have := v.isLt
  obtain ⟨_, e0⟩ := toBE_toNat 2 v 0 (by omega)
  obtain ⟨_, e1⟩ := toBE_toNat 2 v 1 (by omega)
  rw [fromBE16_toNat, e0, e1]
  omega

theorem val32_of_bytes {b : Arr Byte} {a : Nat} {v : BitVec 32}
    (h : ∀ j (hj : j < (toBESigned 4 v).length), b.val (a + j) = (toBESigned 4 v)[j]) : val32 b a = v := by
  have h0 := h 0 (by simp [toBESigned])
  have h1 := h 1 (by simp [toBESigned])
  have h2 := h 2 (by simp [toBESigned])
  have h3 := h 3 (by simp [toBESigned])
  unfold val32
  rw [Nat.add_zero] at h0
  rw [h0, h1, h2, h3]
  apply BitVec.eq_of_toNat_eq
  have := v.isLt
  obtain ⟨_, e0⟩ := toBE_toNat 4 v 0 (by omega)
  obtain ⟨_, e1⟩ := toBE_toNat 4 v 1 (by omega)
  obtain ⟨_, e2⟩ := toBE_toNat 4 v 2 (by omega)
  obtain ⟨_, e3⟩ := toBE_toNat 4 v 3 (by omega)
  rw [fromBE32_toNat, e0, e1, e2, e3]
  omega

/-! ## Sequences of writes -/

/-- A write: address and bytes. -/
abbrev Wr := Nat × List Byte

/-- Perform writes in order. -/
def runWrites (b : Arr Byte) : List Wr → Res (Arr Byte)
  | [] => .ok b
  | w :: ws => do
    let b ← b.writes w.1 w.2
    runWrites b ws

theorem bind_assoc' {α β γ : Type} (x : Res α) (f : α → Res β) (g : β → Res γ) :
    ((x >>= f) >>= g) = (x >>= fun a => f a >>= g) := by
  cases x <;> rfl

theorem runWrites_append (b : Arr Byte) (ws ws' : List Wr) :
    runWrites b (ws ++ ws') = (do let b ← runWrites b ws; runWrites b ws') := by
  induction ws generalizing b with
  | nil => rfl
  | cons w ws ih =>
    simp only [List.cons_append, runWrites, bind_assoc']
    congr 1; funext b'; exact ih b'

/-- Address ranges do not meet. -/
def Apart (w w' : Wr) : Prop := w.1 + w.2.length ≤ w'.1 ∨ w'.1 + w'.2.length ≤ w.1

/-- Address inside a write. -/
def Covers (w : Wr) (x : Nat) : Prop := w.1 ≤ x ∧ x < w.1 + w.2.length

theorem runWrites_spec (ws : List Wr) : ∀ (b : Arr Byte), b.len ≤ 2 ^ 64 →
    (∀ w ∈ ws, w.1 + w.2.length ≤ b.len) → ws.Pairwise Apart →
    ∃ b', runWrites b ws = .ok b' ∧ b'.len = b.len ∧
      (∀ x, (∀ w ∈ ws, ¬ Covers w x) → b'.val x = b.val x) ∧
      ∀ w ∈ ws, ∀ j (h : j < w.2.length), b'.val (w.1 + j) = w.2[j] := by
  induction ws with
  | nil => intro b _ _ _; exact ⟨b, rfl, rfl, fun _ _ => rfl, fun w h => by simp at h⟩
  | cons w ws ih =>
    intro b hl hb hp
    rw [List.pairwise_cons] at hp
    obtain ⟨b1, e1, e2, e3, e4⟩ := Arr.writes_spec w.2 b w.1 (hb w List.mem_cons_self) hl
    obtain ⟨b2, f1, f2, f3, f4⟩ := ih b1 (by omega)
      (fun w' hw' => by rw [e2]; exact hb w' (List.mem_cons_of_mem _ hw')) hp.2
    refine ⟨b2, ?_, by omega, ?_, ?_⟩
    · unfold runWrites; rw [e1, Res.ok_bind, f1]
    · intro x hx
      rw [f3 x fun w' hw' => hx w' (List.mem_cons_of_mem _ hw')]
      exact e3 x (hx w List.mem_cons_self)
    · intro w' hw' j hj
      rcases List.mem_cons.mp hw' with rfl | hw'
      · rw [f3 _ fun w'' hw'' hc => ?_]
        · exact e4 j hj
        · have := hp.1 w'' hw''
          unfold Covers at hc; unfold Apart at this; omega
      · exact f4 w' hw' j hj

/-! ## `insTrace` as a sequence of writes -/

/-- Writes made by the entry loop. -/
def intW {F : Type} (p : Param F) (row start base : Nat) : Map → List Wr :=
  List.filterMap fun q => match q.2 with
    | some e => match e.kind with
      | .short => some (base + relLoc e.loc start, toBESigned 2 (p.s.val (row * p.rule.cnt .short + e.num)))
      | .long => some (base + relLoc e.loc start,
          toBESigned 4 ((p.i.val (row * p.rule.cnt .long + e.num)).setWidth 32))
      | _ => none
    | none => none

/-- Float entries. -/
def floatsOf : Map → List Entry :=
  List.filterMap fun q => match q.2 with
    | some e => if e.kind = .float then some e else none
    | none => none

/-- Value held for a float entry. -/
def fval {F : Type} (p : Param F) (row : Nat) (e : Entry) : F := p.f.val (row * p.rule.cnt .float + e.num)

/-- The scalar map after the entry loop. -/
def scalOf {F : Type} (fs : F → BitVec 16) (p : Param F) (row : Nat) (es : List Entry) (s : Scal) : Scal :=
  es.foldl (fun s e => s.put e.scalLoc (joinScal (s.at e.scalLoc) (fs (fval p row e)))) s

theorem floatsOf_cons (q : Nat × Option Entry) (l : Map) :
    floatsOf (q :: l) = (match q.2 with
      | some e => if e.kind = .float then [e] else []
      | none => []) ++ floatsOf l := by
  obtain ⟨m, o⟩ := q
  cases o with
  | none => simp [floatsOf]
  | some e => by_cases h : e.kind = .float <;> simp [floatsOf, h]

theorem insEntries_eq {F : Type} (ops : FloatOps F) (fs : F → BitVec 16) (p : Param F) (hp : WF p)
    (row start base : Nat) (hrow : row < p.sz)
    (hfs : ∀ x, x < p.f.len → ops.findScalar (p.f.val x) = .ok (fs (p.f.val x))) (l : Map) :
    ∀ st : Ins, (∀ q ∈ l, q ∈ p.rule.map) →
    insEntries ops p row start base st l = (do
      let b ← runWrites st.buf (intW p row start base l)
      Res.ok ⟨b, scalOf fs p row (floatsOf l) st.scal, st.rule ++ floatsOf l⟩) := by
  induction l with
  | nil => intro st _; simp [insEntries, intW, runWrites, floatsOf, scalOf]
  | cons q l ih =>
    intro st hl
    obtain ⟨m, o⟩ := q
    obtain ⟨e, he⟩ := hp.inv.nonull _ (hl _ List.mem_cons_self)
    simp only at he; subst he
    have hmem := hl _ List.mem_cons_self
    have hlt := num_lt hp.inv hmem
    have hl' : ∀ q ∈ l, q ∈ p.rule.map := fun q hq => hl q (List.mem_cons_of_mem _ hq)
    have hidx : ∀ k, e.kind = k → row * p.rule.cnt k + e.num < p.sz * p.rule.cnt k := by
      intro k hk
      rw [Nat.mul_comm row]
      exact idx_lt (by rw [← hk]; exact hlt) hrow
    rw [floatsOf_cons]
    unfold insEntries
    cases hk : e.kind with
    | float =>
      have h1 := hidx _ hk
      have e1 : insEntry ops p row start base st (some e) =
          .ok { st with rule := st.rule ++ [e], scal := st.scal.put e.scalLoc (joinScal (st.scal.at e.scalLoc) (fs (fval p row e))) } := by
        unfold insEntry
        simp only [hk]
        rw [Arr.get_ok (by rw [hp.f]; exact h1), Res.ok_bind, hfs _ (by rw [hp.f]; exact h1)]
        rfl
      rw [e1, Res.ok_bind, ih _ hl']
      have e2 : intW p row start base ((m, some e) :: l) = intW p row start base l := by
        simp [intW, hk]
      rw [e2]
      simp [scalOf, hk]
    | short =>
      have h1 := hidx _ hk
      have e2 : intW p row start base ((m, some e) :: l) =
          (base + relLoc e.loc start, toBESigned 2 (p.s.val (row * p.rule.cnt .short + e.num))) ::
            intW p row start base l := by
        simp [intW, hk]
      rw [e2]
      unfold insEntry runWrites
      simp only [hk]
      rw [Arr.get_ok (by rw [hp.s]; exact h1), Res.ok_bind]
      simp only [bind_assoc', Res.ok_bind]
      congr 1; funext b
      rw [ih _ hl']
      simp
    | long =>
      have h1 := hidx _ hk
      have e2 : intW p row start base ((m, some e) :: l) =
          (base + relLoc e.loc start, toBESigned 4 ((p.i.val (row * p.rule.cnt .long + e.num)).setWidth 32)) ::
            intW p row start base l := by
        simp [intW, hk]
      rw [e2]
      unfold insEntry runWrites
      simp only [hk]
      rw [Arr.get_ok (by rw [hp.i]; exact h1), Res.ok_bind]
      simp only [bind_assoc', Res.ok_bind]
      congr 1; funext b
      rw [ih _ hl']
      simp
    | index =>
      have e2 : intW p row start base ((m, some e) :: l) = intW p row start base l := by
        simp [intW, hk]
      unfold insEntry
      simp only [hk, Res.ok_bind]
      rw [ih _ hl', e2]; simp
    | copy =>
      have e2 : intW p row start base ((m, some e) :: l) = intW p row start base l := by
        simp [intW, hk]
      unfold insEntry
      simp only [hk, Res.ok_bind]
      rw [ih _ hl', e2]; simp

/-- Writes of the scalar loop. -/
def scalW (start base : Nat) (s : Scal) : List Wr :=
  s.map fun q => (base + relLoc q.1 start, toBESigned 2 q.2)

theorem insScals_eq (start base : Nat) (s : Scal) : ∀ b : Arr Byte,
    insScals start base b s = runWrites b (scalW start base s) := by
  induction s with
  | nil => intro b; rfl
  | cons q s ih =>
    intro b
    show (do let b ← b.writes _ _; insScals start base b s) = (do let b ← b.writes _ _; runWrites b _)
    congr 1; funext b'; exact ih b'

/-- Writes of the float loop. -/
def floatW {F : Type} (en : F → BitVec 16 → BitVec 32) (p : Param F) (row start base : Nat)
    (s : Scal) (es : List Entry) : List Wr :=
  es.map fun e => (base + relLoc e.loc start, toBESigned 4 (en (fval p row e) (s.at e.scalLoc)))

theorem insFloats_eq {F : Type} (ops : FloatOps F) (en : F → BitVec 16 → BitVec 32) (p : Param F)
    (row start base : Nat) (s : Scal)
    (hen : ∀ x, x < p.f.len → ∀ v, ops.encode (p.f.val x) v = .ok (en (p.f.val x) v)) (es : List Entry) :
    ∀ b : Arr Byte, (∀ e ∈ es, row * p.rule.cnt .float + e.num < p.f.len) →
    insFloats ops p row start base s b es = runWrites b (floatW en p row start base s es) := by
  induction es with
  | nil => intro b _; rfl
  | cons e es ih =>
    intro b h
    have h0 := h e List.mem_cons_self
    unfold insFloats
    rw [Arr.get_ok h0, Res.ok_bind, hen _ h0, Res.ok_bind]
    show (do let b ← b.writes _ _; insFloats ops p row start base s b es) = (do let b ← b.writes _ _; runWrites b _)
    congr 1; funext b'
    exact ih b' fun e' he' => h e' (List.mem_cons_of_mem _ he')

/-! ### The scalar map -/

theorem Scal.at_put (s : Scal) (tr tr' : Nat) (v : BitVec 16) :
    (s.put tr v).at tr' = if tr' = tr then v else s.at tr' := by
  unfold Scal.put Scal.at
  by_cases h : tr' = tr
  · subst h; simp
  · rw [if_neg h, List.find?_cons_of_neg (by simpa using fun h' => h h'.symm)]
    congr 2
    induction s with
    | nil => rfl
    | cons q s ih =>
      by_cases hq : q.1 = tr
      · rw [List.filter_cons_of_neg (by simpa using hq), ih]
        rw [List.find?_cons_of_neg (by simp [hq]; exact fun h' => h h'.symm)]
      · rw [List.filter_cons_of_pos (by simpa using hq)]
        by_cases hq' : q.1 = tr'
        · rw [List.find?_cons_of_pos (by simpa using hq'), List.find?_cons_of_pos (by simpa using hq')]
        · rw [List.find?_cons_of_neg (by simpa using hq'), List.find?_cons_of_neg (by simpa using hq'), ih]

theorem Scal.put_keys {s : Scal} (h : (s.map Prod.fst).Nodup) (tr : Nat) (v : BitVec 16) :
    ((s.put tr v).map Prod.fst).Nodup := by
  unfold Scal.put
  rw [List.map_cons, List.nodup_cons]
  constructor
  · intro hm
    obtain ⟨q, hq, he⟩ := List.mem_map.mp hm
    rw [List.mem_filter] at hq
    simp at hq
    exact hq.2 he
  · exact (List.filter_sublist.map Prod.fst).nodup h

theorem Scal.mem_put {s : Scal} {tr : Nat} {v : BitVec 16} {q} (h : q ∈ s.put tr v) :
    q.1 = tr ∨ q ∈ s := by
  unfold Scal.put at h
  rcases List.mem_cons.mp h with rfl | h
  · exact Or.inl rfl
  · exact Or.inr (List.mem_filter.mp h).1

theorem Scal.at_mem {s : Scal} (h : (s.map Prod.fst).Nodup) {q : Nat × BitVec 16} (hq : q ∈ s) :
    s.at q.1 = q.2 := by
  induction s with
  | nil => simp at hq
  | cons x s ih =>
    rw [List.map_cons, List.nodup_cons] at h
    unfold Scal.at
    rcases List.mem_cons.mp hq with rfl | hq
    · simp
    · have hne : x.1 ≠ q.1 := fun he => h.1 (he ▸ List.mem_map_of_mem (f := Prod.fst) hq)
      rw [List.find?_cons_of_neg (by simpa using hne)]
      exact ih h.2 hq

/-- Scalar accumulated for field `tr`. -/
def scalFold {F : Type} (fs : F → BitVec 16) (p : Param F) (row : Nat) (es : List Entry) (tr : Nat)
    (a : BitVec 16) : BitVec 16 :=
  es.foldl (fun a e => if e.scalLoc = tr then joinScal a (fs (fval p row e)) else a) a

theorem scalOf_spec {F : Type} (fs : F → BitVec 16) (p : Param F) (row : Nat) (es : List Entry) :
    ∀ s : Scal, (s.map Prod.fst).Nodup →
    ((scalOf fs p row es s).map Prod.fst).Nodup ∧
    (∀ tr, (scalOf fs p row es s).at tr = scalFold fs p row es tr (s.at tr)) ∧
    (∀ q ∈ scalOf fs p row es s, (∃ e ∈ es, e.scalLoc = q.1) ∨ ∃ q' ∈ s, q'.1 = q.1) ∧
    ∀ tr, ((∃ e ∈ es, e.scalLoc = tr) ∨ ∃ q ∈ s, q.1 = tr) → ∃ q ∈ scalOf fs p row es s, q.1 = tr := by
  induction es with
  | nil =>
    intro s h
    refine ⟨h, fun _ => rfl, fun q hq => Or.inr ⟨q, hq, rfl⟩, fun tr h => ?_⟩
    rcases h with ⟨e, he, _⟩ | h
    · simp at he
    · exact h
  | cons e es ih =>
    intro s h
    obtain ⟨h1, h2, h3, h4⟩ := ih _ (Scal.put_keys h e.scalLoc (joinScal (s.at e.scalLoc) (fs (fval p row e))))
    refine ⟨h1, ?_, ?_, ?_⟩
    · intro tr
      have := h2 tr
      rw [Scal.at_put] at this
      show (scalOf fs p row es _).at tr = _
      rw [this]
      unfold scalFold
      rw [List.foldl_cons]
      by_cases he : tr = e.scalLoc
      · subst he; simp
      · rw [if_neg he, if_neg (fun h => he h.symm)]
    · intro q hq
      rcases h3 q hq with ⟨e', he', hs⟩ | ⟨q', hq', hs⟩
      · exact Or.inl ⟨e', List.mem_cons_of_mem _ he', hs⟩
      · rcases Scal.mem_put hq' with hq' | hq'
        · exact Or.inl ⟨e, List.mem_cons_self, by rw [← hq', hs]⟩
        · exact Or.inr ⟨q', hq', hs⟩
    · intro tr ht
      refine h4 tr ?_
      rcases ht with ⟨e', he', hs⟩ | ⟨q, hq, hs⟩
      · rcases List.mem_cons.mp he' with rfl | he'
        · exact Or.inr ⟨_, List.mem_cons_self, hs⟩
        · exact Or.inl ⟨e', he', hs⟩
      · by_cases hh : tr = e.scalLoc
        · exact Or.inr ⟨_, List.mem_cons_self, hh.symm⟩
        · refine Or.inr ⟨q, List.mem_cons_of_mem _ (List.mem_filter.mpr ⟨hq, ?_⟩), hs⟩
          simpa [hs] using hh

/-! ### Content of one header -/

/-- Bytes of the value field of a kind. -/
def width : Kind → Nat
  | .long => 4
  | .short => 2
  | .float => 4
  | .index => 0
  | .copy => 0

/-- Kinds with a field in the header. -/
def Valued (k : Kind) : Prop := k = .long ∨ k = .short ∨ k = .float

/-- Two header fields `(first byte, length)` do not meet. -/
def DisjF (a la b lb : Nat) : Prop := a + la ≤ b ∨ b + lb ≤ a

/-- The items occupy distinct bytes of the 240-byte header (numbered from 1);
floats may share a scalar field. -/
structure HdrLayout (r : Rule) : Prop where
  fits : ∀ m e, (m, some e) ∈ r.map → Valued e.kind → 1 ≤ e.loc ∧ e.loc + width e.kind ≤ 241
  sfits : ∀ m e, (m, some e) ∈ r.map → e.kind = .float → 1 ≤ e.scalLoc ∧ e.scalLoc + 2 ≤ 241
  vv : ∀ m e m' e', (m, some e) ∈ r.map → (m', some e') ∈ r.map → m ≠ m' → Valued e.kind →
    Valued e'.kind → DisjF e.loc (width e.kind) e'.loc (width e'.kind)
  vs : ∀ m e m' e', (m, some e) ∈ r.map → (m', some e') ∈ r.map → Valued e.kind →
    e'.kind = .float → DisjF e.loc (width e.kind) e'.scalLoc 2
  ss : ∀ m e m' e', (m, some e) ∈ r.map → (m', some e') ∈ r.map → e.kind = .float →
    e'.kind = .float → e.scalLoc = e'.scalLoc ∨ DisjF e.scalLoc 2 e'.scalLoc 2

/-- Byte `x` of the buffer belongs to an item of the header at `base`. -/
def Named (r : Rule) (base x : Nat) : Prop :=
  ∃ m e, (m, some e) ∈ r.map ∧
    ((Valued e.kind ∧ base + e.loc ≤ x + 1 ∧ x + 1 < base + e.loc + width e.kind) ∨
     (e.kind = .float ∧ base + e.scalLoc ≤ x + 1 ∧ x + 1 < base + e.scalLoc + 2))

theorem relLoc_zero {loc : Nat} (h : 1 ≤ loc) (h' : loc ≤ 241) : relLoc loc 0 = loc - 1 := by
  unfold relLoc
  rw [sub64_eq (a := loc) (b := 0) (by omega) (by omega), sub64_eq (by omega) (by omega)]
  rfl

theorem toBE_length (n : Nat) (v : BitVec (8 * n)) : (toBESigned n v).length = n := by
  simp [toBESigned]

theorem mem_intW {F : Type} {p : Param F} {row start base : Nat} {l : Map} {w : Wr}
    (h : w ∈ intW p row start base l) :
    ∃ m e, (m, some e) ∈ l ∧ (e.kind = .long ∨ e.kind = .short) ∧
      w.1 = base + relLoc e.loc start ∧ w.2.length = width e.kind := by
  unfold intW at h
  obtain ⟨⟨m, o⟩, hq, hw⟩ := List.mem_filterMap.mp h
  cases o with
  | none => simp at hw
  | some e =>
    refine ⟨m, e, hq, ?_⟩
    cases hk : e.kind <;> simp [hk] at hw <;> subst hw <;> simp [toBE_length, width]

theorem mem_floatsOf {l : Map} {e : Entry} : e ∈ floatsOf l ↔ ∃ m, (m, some e) ∈ l ∧ e.kind = .float := by
  unfold floatsOf
  rw [List.mem_filterMap]
  constructor
  · rintro ⟨⟨m, o⟩, hq, hw⟩
    cases o with
    | none => simp at hw
    | some e' =>
      by_cases hk : e'.kind = .float
      · simp [hk] at hw; subst hw; exact ⟨m, hq, hk⟩
      · simp [hk] at hw
  · rintro ⟨m, hq, hk⟩
    exact ⟨_, hq, by simp [hk]⟩

theorem keys_pairwise {r : Rule} (hr : Inv r) : r.map.Pairwise (fun p q => p.1 ≠ q.1) := by
  have := hr.keys
  unfold List.Nodup at this
  rwa [List.pairwise_map] at this

/-- The writes of one trace. -/
def traceW {F : Type} (fs : F → BitVec 16) (en : F → BitVec 16 → BitVec 32) (p : Param F)
    (row start base : Nat) : List Wr :=
  intW p row start base p.rule.map ++
    (scalW start base (scalOf fs p row (floatsOf p.rule.map) []) ++
     floatW en p row start base (scalOf fs p row (floatsOf p.rule.map) []) (floatsOf p.rule.map))

theorem insTrace_eq {F : Type} (ops : FloatOps F) (fs : F → BitVec 16) (en : F → BitVec 16 → BitVec 32)
    (p : Param F) (hp : WF p) (row start base : Nat) (hrow : row < p.sz)
    (hfs : ∀ x, x < p.f.len → ops.findScalar (p.f.val x) = .ok (fs (p.f.val x)))
    (hen : ∀ x, x < p.f.len → ∀ v, ops.encode (p.f.val x) v = .ok (en (p.f.val x) v)) (b : Arr Byte) :
    insTrace ops p row start base b = runWrites b (traceW fs en p row start base) := by
  unfold insTrace traceW
  rw [insEntries_eq ops fs p hp row start base hrow hfs _ _ (fun q h => h)]
  rw [runWrites_append]
  simp only [bind_assoc', Res.ok_bind, List.nil_append]
  congr 1; funext b1
  rw [runWrites_append, insScals_eq]
  congr 1; funext b2
  apply insFloats_eq ops en p row start base _ hen
  intro e he
  obtain ⟨m, hm, hk⟩ := mem_floatsOf.mp he
  have := num_lt hp.inv hm
  rw [hk] at this
  rw [hp.f, Nat.mul_comm row]
  exact idx_lt this hrow

theorem traceW_ok {F : Type} (fs : F → BitVec 16) (en : F → BitVec 16 → BitVec 32) (p : Param F)
    (hp : WF p) (hl : HdrLayout p.rule) (row base : Nat) :
    (traceW fs en p row 0 base).Pairwise Apart ∧
    (∀ w ∈ traceW fs en p row 0 base, base ≤ w.1 ∧ w.1 + w.2.length ≤ base + 240 ∧
      ∀ x, Covers w x → Named p.rule base x) := by
  obtain ⟨k1, -, k3, -⟩ := scalOf_spec fs p row (floatsOf p.rule.map) [] (by simp)
  have fi : ∀ w ∈ intW p row 0 base p.rule.map, ∃ m e, (m, some e) ∈ p.rule.map ∧
      (e.kind = .long ∨ e.kind = .short) ∧ w.1 = base + (e.loc - 1) ∧ w.2.length = width e.kind ∧
      1 ≤ e.loc ∧ e.loc + width e.kind ≤ 241 := by
    intro w hw
    obtain ⟨m, e, h1, h2, h3, h4⟩ := mem_intW hw
    have := hl.fits m e h1 (by rcases h2 with h | h <;> simp [Valued, h])
    exact ⟨m, e, h1, h2, by rw [h3, relLoc_zero this.1 (by omega)], h4, this⟩
  have fsc : ∀ q ∈ scalOf fs p row (floatsOf p.rule.map) [], ∃ m e, (m, some e) ∈ p.rule.map ∧
      e.kind = .float ∧ e.scalLoc = q.1 ∧ 1 ≤ e.scalLoc ∧ e.scalLoc + 2 ≤ 241 := by
    intro q hq
    rcases k3 q hq with ⟨e, he, hs⟩ | ⟨q', hq', _⟩
    · obtain ⟨m, hm, hk⟩ := mem_floatsOf.mp he
      exact ⟨m, e, hm, hk, hs, hl.sfits m e hm hk⟩
    · simp at hq'
  have fl : ∀ e ∈ floatsOf p.rule.map, ∃ m, (m, some e) ∈ p.rule.map ∧ e.kind = .float ∧
      1 ≤ e.loc ∧ e.loc + 4 ≤ 241 := by
    intro e he
    obtain ⟨m, hm, hk⟩ := mem_floatsOf.mp he
    have := hl.fits m e hm (by simp [Valued, hk])
    rw [hk] at this
    exact ⟨m, hm, hk, this⟩
  constructor
  · unfold traceW
    rw [List.pairwise_append]
    refine ⟨?_, ?_, ?_⟩
    · unfold intW
      rw [List.pairwise_filterMap]
      refine (keys_pairwise hp.inv).imp_of_mem ?_
      rintro ⟨m, o⟩ ⟨m', o'⟩ hq hq' hne w hw w' hw'
      have h1 : w ∈ intW p row 0 base [(m, o)] := by
        unfold intW; exact List.mem_filterMap.mpr ⟨_, List.mem_singleton.mpr rfl, hw⟩
      have h2 : w' ∈ intW p row 0 base [(m', o')] := by
        unfold intW; exact List.mem_filterMap.mpr ⟨_, List.mem_singleton.mpr rfl, hw'⟩
      obtain ⟨n, e, a1, a2, a3, a4⟩ := mem_intW h1
      obtain ⟨n', e', b1, b2, b3, b4⟩ := mem_intW h2
      rw [List.mem_singleton] at a1 b1
      cases a1; cases b1
      have v1 : Valued e.kind := by rcases a2 with h | h <;> simp [Valued, h]
      have v2 : Valued e'.kind := by rcases b2 with h | h <;> simp [Valued, h]
      have c1 := hl.fits _ _ hq v1
      have c2 := hl.fits _ _ hq' v2
      rw [relLoc_zero c1.1 (by omega)] at a3
      rw [relLoc_zero c2.1 (by omega)] at b3
      have := hl.vv _ _ _ _ hq hq' hne v1 v2
      unfold DisjF at this; unfold Apart
      omega
    · rw [List.pairwise_append]
      refine ⟨?_, ?_, ?_⟩
      · unfold scalW
        rw [List.pairwise_map]
        unfold List.Nodup at k1
        rw [List.pairwise_map] at k1
        refine k1.imp_of_mem ?_
        intro q q' hq hq' hne
        obtain ⟨m, e, a1, a2, a3, a4, a5⟩ := fsc q hq
        obtain ⟨m', e', b1, b2, b3, b4, b5⟩ := fsc q' hq'
        have := hl.ss _ _ _ _ a1 b1 a2 b2
        unfold Apart
        simp only [toBE_length]
        rw [relLoc_zero (by omega) (by omega), relLoc_zero (by omega) (by omega)]
        unfold DisjF at this
        omega
      · unfold floatW floatsOf
        rw [List.pairwise_map, List.pairwise_filterMap]
        refine (keys_pairwise hp.inv).imp_of_mem ?_
        rintro ⟨m, o⟩ ⟨m', o'⟩ hq hq' hne w hw w' hw'
        have h1 : w ∈ floatsOf [(m, o)] := by
          unfold floatsOf; exact List.mem_filterMap.mpr ⟨_, List.mem_singleton.mpr rfl, hw⟩
        have h2 : w' ∈ floatsOf [(m', o')] := by
          unfold floatsOf; exact List.mem_filterMap.mpr ⟨_, List.mem_singleton.mpr rfl, hw'⟩
        obtain ⟨n, a1, a2⟩ := mem_floatsOf.mp h1
        obtain ⟨n', b1, b2⟩ := mem_floatsOf.mp h2
        rw [List.mem_singleton] at a1 b1
        cases a1; cases b1
        have v1 : Valued w.kind := by simp [Valued, a2]
        have v2 : Valued w'.kind := by simp [Valued, b2]
        have c1 := hl.fits _ _ hq v1
        have c2 := hl.fits _ _ hq' v2
        have := hl.vv _ _ _ _ hq hq' hne v1 v2
        rw [a2] at this c1; rw [b2] at this c2
        unfold Apart
        simp only [toBE_length]
        rw [relLoc_zero c1.1 (by simp [width] at c1; omega), relLoc_zero c2.1 (by simp [width] at c2; omega)]
        simp only [DisjF, width] at this
        omega
      · intro w hw w' hw'
        unfold scalW at hw; unfold floatW at hw'
        obtain ⟨q, hq, rfl⟩ := List.mem_map.mp hw
        obtain ⟨e', he', rfl⟩ := List.mem_map.mp hw'
        obtain ⟨m, e, a1, a2, a3, a4, a5⟩ := fsc q hq
        obtain ⟨m', b1, b2, b3, b4⟩ := fl e' he'
        have := hl.vs _ _ _ _ b1 a1 (by simp [Valued, b2]) a2
        unfold Apart
        simp only [toBE_length]
        rw [relLoc_zero (by omega) (by omega), relLoc_zero (by omega) (by omega)]
        rw [b2] at this
        simp only [DisjF, width] at this
        omega
    · intro w hw w' hw'
      obtain ⟨m, e, a1, a2, a3, a4, a5, a6⟩ := fi w hw
      have v1 : Valued e.kind := by rcases a2 with h | h <;> simp [Valued, h]
      rcases List.mem_append.mp hw' with hw' | hw'
      · unfold scalW at hw'
        obtain ⟨q, hq, rfl⟩ := List.mem_map.mp hw'
        obtain ⟨m', e', b1, b2, b3, b4, b5⟩ := fsc q hq
        have := hl.vs _ _ _ _ a1 b1 v1 b2
        unfold Apart
        simp only [toBE_length]
        rw [relLoc_zero (by omega) (by omega)]
        unfold DisjF at this
        omega
      · unfold floatW at hw'
        obtain ⟨e', he', rfl⟩ := List.mem_map.mp hw'
        obtain ⟨m', b1, b2, b3, b4⟩ := fl e' he'
        have hne : m ≠ m' := by
          rintro rfl
          have := find_of_mem hp.inv.keys a1
          rw [find_of_mem hp.inv.keys b1] at this
          cases this
          rcases a2 with h | h <;> rw [b2] at h <;> cases h
        have := hl.vv _ _ _ _ a1 b1 hne v1 (by simp [Valued, b2])
        unfold Apart
        simp only [toBE_length]
        rw [relLoc_zero (by omega) (by omega)]
        rw [b2] at this
        simp only [DisjF] at this
        rw [show width .float = 4 from rfl] at this
        omega
  · intro w hw
    unfold traceW at hw
    rcases List.mem_append.mp hw with hw | hw
    · obtain ⟨m, e, a1, a2, a3, a4, a5, a6⟩ := fi w hw
      refine ⟨by omega, by omega, ?_⟩
      intro x hx
      unfold Covers at hx
      exact ⟨m, e, a1, Or.inl ⟨by rcases a2 with h | h <;> simp [Valued, h], by omega, by omega⟩⟩
    · rcases List.mem_append.mp hw with hw | hw
      · unfold scalW at hw
        obtain ⟨q, hq, rfl⟩ := List.mem_map.mp hw
        obtain ⟨m, e, a1, a2, a3, a4, a5⟩ := fsc q hq
        simp only [toBE_length, Covers]
        rw [relLoc_zero (by omega) (by omega)]
        refine ⟨by omega, by omega, ?_⟩
        intro x hx
        exact ⟨m, e, a1, Or.inr ⟨a2, by omega, by omega⟩⟩
      · unfold floatW at hw
        obtain ⟨e, he, rfl⟩ := List.mem_map.mp hw
        obtain ⟨m, a1, a2, a3, a4⟩ := fl e he
        simp only [toBE_length, Covers]
        rw [relLoc_zero (by omega) (by omega)]
        refine ⟨by omega, by omega, ?_⟩
        intro x hx
        refine ⟨m, e, a1, Or.inl ⟨by simp [Valued, a2], by omega, ?_⟩⟩
        rw [a2, show width .float = 4 from rfl]; omega

/-- Scalar written for field `tr` of the header of `row`. -/
def scalarOf {F : Type} (fs : F → BitVec 16) (p : Param F) (row tr : Nat) : BitVec 16 :=
  scalFold fs p row (floatsOf p.rule.map) tr 1#16

/-- The header at `base` holds the parameters of `row`. -/
def Holds {F : Type} (fs : F → BitVec 16) (en : F → BitVec 16 → BitVec 32) (p : Param F) (row base : Nat)
    (b : Arr Byte) : Prop :=
  ∀ m e, (m, some e) ∈ p.rule.map →
    (e.kind = .short → val16 b (base + (e.loc - 1)) = p.s.val (row * p.rule.cnt .short + e.num)) ∧
    (e.kind = .long → val32 b (base + (e.loc - 1)) = (p.i.val (row * p.rule.cnt .long + e.num)).setWidth 32) ∧
    (e.kind = .float → val16 b (base + (e.scalLoc - 1)) = scalarOf fs p row e.scalLoc ∧
      val32 b (base + (e.loc - 1)) = en (fval p row e) (scalarOf fs p row e.scalLoc))

theorem insTrace_spec {F : Type} (ops : FloatOps F) (fs : F → BitVec 16) (en : F → BitVec 16 → BitVec 32)
    (p : Param F) (hp : WF p) (hl : HdrLayout p.rule) (row base : Nat) (hrow : row < p.sz)
    (hfs : ∀ x, x < p.f.len → ops.findScalar (p.f.val x) = .ok (fs (p.f.val x)))
    (hen : ∀ x, x < p.f.len → ∀ v, ops.encode (p.f.val x) v = .ok (en (p.f.val x) v)) (b : Arr Byte)
    (hb : base + 240 ≤ b.len) (hb' : b.len ≤ 2 ^ 64) :
    ∃ b', insTrace ops p row 0 base b = .ok b' ∧ b'.len = b.len ∧
      (∀ x, ¬ Named p.rule base x → b'.val x = b.val x) ∧ Holds fs en p row base b' := by
  obtain ⟨hw1, hw2⟩ := traceW_ok fs en p hp hl row base
  obtain ⟨b', e1, e2, e3, e4⟩ := runWrites_spec (traceW fs en p row 0 base) b hb'
    (fun w hw => by have := hw2 w hw; omega) hw1
  refine ⟨b', by rw [insTrace_eq ops fs en p hp row 0 base hrow hfs hen, e1], e2, ?_, ?_⟩
  · intro x hx
    exact e3 x fun w hw hc => hx ((hw2 w hw).2.2 x hc)
  · obtain ⟨k1, k2, -, k4⟩ := scalOf_spec fs p row (floatsOf p.rule.map) [] (by simp)
    intro m e hm
    refine ⟨?_, ?_, ?_⟩
    · intro hk
      have hf := hl.fits m e hm (by simp [Valued, hk])
      have hw : (base + (e.loc - 1), toBESigned 2 (p.s.val (row * p.rule.cnt .short + e.num))) ∈
          traceW fs en p row 0 base := by
        refine List.mem_append_left _ (List.mem_filterMap.mpr ⟨_, hm, ?_⟩)
        simp only [hk]
        rw [relLoc_zero hf.1 (by omega)]
      exact val16_of_bytes (e4 _ hw)
    · intro hk
      have hf := hl.fits m e hm (by simp [Valued, hk])
      have hw : (base + (e.loc - 1), toBESigned 4 ((p.i.val (row * p.rule.cnt .long + e.num)).setWidth 32)) ∈
          traceW fs en p row 0 base := by
        refine List.mem_append_left _ (List.mem_filterMap.mpr ⟨_, hm, ?_⟩)
        simp only [hk]
        rw [relLoc_zero hf.1 (by omega)]
      exact val32_of_bytes (e4 _ hw)
    · intro hk
      have hf := hl.fits m e hm (by simp [Valued, hk])
      have hsf := hl.sfits m e hm hk
      have he : e ∈ floatsOf p.rule.map := mem_floatsOf.mpr ⟨m, hm, hk⟩
      have hat : (scalOf fs p row (floatsOf p.rule.map) []).at e.scalLoc = scalarOf fs p row e.scalLoc := by
        rw [k2]; rfl
      constructor
      · obtain ⟨q, hq, hqe⟩ := k4 e.scalLoc (Or.inl ⟨e, he, rfl⟩)
        have hqv := Scal.at_mem k1 hq
        rw [hqe, hat] at hqv
        have hw : (base + (e.scalLoc - 1), toBESigned 2 (scalarOf fs p row e.scalLoc)) ∈
            traceW fs en p row 0 base := by
          refine List.mem_append_right _ (List.mem_append_left _ (List.mem_map.mpr ⟨q, hq, ?_⟩))
          rw [hqv, hqe, relLoc_zero hsf.1 (by omega)]
        exact val16_of_bytes (e4 _ hw)
      · have hw : (base + (e.loc - 1), toBESigned 4 (en (fval p row e) (scalarOf fs p row e.scalLoc))) ∈
            traceW fs en p row 0 base := by
          refine List.mem_append_right _ (List.mem_append_right _ (List.mem_map.mpr ⟨e, he, ?_⟩))
          rw [hat, relLoc_zero hf.1 (by omega)]
        exact val32_of_bytes (e4 _ hw)

/-! ## `insertParam` -/

theorem Named.bounds {r : Rule} (hl : HdrLayout r) {base x : Nat} (h : Named r base x) :
    base ≤ x ∧ x < base + 240 := by
  obtain ⟨m, e, hm, ⟨hv, h1, h2⟩ | ⟨hk, h1, h2⟩⟩ := h
  · have := hl.fits m e hm hv; omega
  · have := hl.sfits m e hm hk; omega

theorem Holds.congr {F : Type} {fs : F → BitVec 16} {en : F → BitVec 16 → BitVec 32} {p : Param F}
    (hl : HdrLayout p.rule) {row base : Nat} {b b' : Arr Byte} (h : Holds fs en p row base b)
    (he : ∀ x, base ≤ x → x < base + 240 → b'.val x = b.val x) : Holds fs en p row base b' := by
  have c16 : ∀ loc, 1 ≤ loc → loc + 2 ≤ 241 → val16 b' (base + (loc - 1)) = val16 b (base + (loc - 1)) := by
    intro loc h1 h2
    unfold val16
    rw [he _ (by omega) (by omega), he _ (by omega) (by omega)]
  have c32 : ∀ loc, 1 ≤ loc → loc + 4 ≤ 241 → val32 b' (base + (loc - 1)) = val32 b (base + (loc - 1)) := by
    intro loc h1 h2
    unfold val32
    rw [he _ (by omega) (by omega), he _ (by omega) (by omega), he _ (by omega) (by omega),
      he _ (by omega) (by omega)]
  intro m e hm
  obtain ⟨h1, h2, h3⟩ := h m e hm
  refine ⟨fun hk => ?_, fun hk => ?_, fun hk => ?_⟩
  · have := hl.fits m e hm (by simp [Valued, hk])
    rw [hk] at this
    rw [c16 _ this.1 this.2]; exact h1 hk
  · have := hl.fits m e hm (by simp [Valued, hk])
    rw [hk] at this
    rw [c32 _ this.1 this.2]; exact h2 hk
  · have f1 := hl.fits m e hm (by simp [Valued, hk])
    have f2 := hl.sfits m e hm hk
    rw [hk] at f1
    rw [c16 _ f2.1 f2.2, c32 _ f1.1 f1.2]; exact h3 hk

theorem extent_full {r : Rule} (h : r.fullextent = true) : extent r = .ok (r, 240) := by
  unfold extent; rw [if_pos h]

theorem base_mono {w i t : Nat} (h : i < t) : w * i + w ≤ w * t := by
  have := Nat.mul_le_mul_left w (Nat.succ_le_of_lt h)
  rw [Nat.mul_succ] at this; exact this

theorem insLoop_spec {F : Type} (ops : FloatOps F) (fs : F → BitVec 16) (en : F → BitVec 16 → BitVec 32)
    (p : Param F) (hp : WF p) (hl : HdrLayout p.rule) (stride skip : Nat)
    (hfs : ∀ x, x < p.f.len → ops.findScalar (p.f.val x) = .ok (fs (p.f.val x)))
    (hen : ∀ x, x < p.f.len → ∀ v, ops.encode (p.f.val x) v = .ok (en (p.f.val x) v))
    (hfull : p.rule.fullextent = true) (n : Nat) : ∀ (i : Nat) (b : Arr Byte),
    i + n + skip ≤ p.sz → (240 + stride) * (i + n) ≤ b.len → b.len ≤ 2 ^ 64 →
    ∃ b', insLoop ops p 0 stride skip p.rule b i n = .ok (b', p.rule) ∧ b'.len = b.len ∧
      (∀ x, (∀ t, i ≤ t → t < i + n → ¬ Named p.rule ((240 + stride) * t) x) → b'.val x = b.val x) ∧
      ∀ t, i ≤ t → t < i + n → Holds fs en p (t + skip) ((240 + stride) * t) b' := by
  induction n with
  | zero => intro i b _ _ _; exact ⟨b, rfl, rfl, fun _ _ => rfl, fun t h1 h2 => by omega⟩
  | succ n ih =>
    intro i b h1 h2 h3
    have h2' : (240 + stride) * i + (240 + stride) ≤ b.len := by
      have := base_mono (w := 240 + stride) (show i < i + (n + 1) by omega); omega
    obtain ⟨b1, e1, e2, e3, e4⟩ := insTrace_spec ops fs en p hp hl (i + skip) ((240 + stride) * i)
      (by omega) hfs hen b (by omega) h3
    obtain ⟨b2, f1, f2, f3, f4⟩ := ih (i + 1) b1 (by omega)
      (by rw [e2, show i + 1 + n = i + (n + 1) by omega]; exact h2) (by omega)
    refine ⟨b2, ?_, by omega, ?_, ?_⟩
    · unfold insLoop
      rw [extent_full hfull, Res.ok_bind]
      simp only
      rw [e1, Res.ok_bind, f1]
    · intro x hx
      rw [f3 x fun t ht ht' => hx t (by omega) (by omega)]
      exact e3 x (hx i (by omega) (by omega))
    · intro t ht ht'
      by_cases hti : t = i
      · subst hti
        refine e4.congr hl ?_
        intro x hx1 hx2
        refine f3 x fun t' h1' h2' hn => ?_
        have hb := hn.bounds hl
        have := base_mono (w := 240 + stride) (show t < t' by omega)
        omega
      · exact f4 t (by omega) (by omega)

theorem copyIn_spec {F : Type} (p : Param F) (hc : p.c.len = p.sz * 240) (stride skip n : Nat) :
    ∀ (i : Nat) (b : Arr Byte), i + n + skip ≤ p.sz → (240 + stride) * (i + n) ≤ b.len →
    ∃ b', copyIn p stride skip b i n = .ok b' ∧ b'.len = b.len ∧
      (∀ x, (∀ t, i ≤ t → t < i + n → ¬ ((240 + stride) * t ≤ x ∧ x < (240 + stride) * t + 240)) →
        b'.val x = b.val x) ∧
      ∀ t, i ≤ t → t < i + n → ∀ o, o < 240 →
        b'.val ((240 + stride) * t + o) = p.c.val ((t + skip) * 240 + o) := by
  induction n with
  | zero => intro i b _ _; exact ⟨b, rfl, rfl, fun _ _ => rfl, fun t h1 h2 => by omega⟩
  | succ n ih =>
    intro i b h1 h2
    have h2' : (240 + stride) * i + (240 + stride) ≤ b.len := by
      have := base_mono (w := 240 + stride) (show i < i + (n + 1) by omega); omega
    have hcm : i * (stride + 240) = (240 + stride) * i := by rw [Nat.mul_comm, Nat.add_comm stride]
    obtain ⟨b1, e1, e2, e3, e4⟩ := Arr.copy_spec 240 p.c ((i + skip) * 240) b ((240 + stride) * i)
      (by rw [hc]; omega) (by omega)
    obtain ⟨b2, f1, f2, f3, f4⟩ := ih (i + 1) b1 (by omega)
      (by rw [e2, show i + 1 + n = i + (n + 1) by omega]; exact h2)
    refine ⟨b2, ?_, by omega, ?_, ?_⟩
    · unfold copyIn
      rw [hcm, e1, Res.ok_bind, f1]
    · intro x hx
      rw [f3 x fun t ht ht' => hx t (by omega) (by omega)]
      exact e3 x (hx i (by omega) (by omega))
    · intro t ht ht' o ho
      by_cases hti : t = i
      · subst hti
        rw [f3 _ fun t' h1' h2' hn => ?_]
        · exact e4 o ho
        · have := base_mono (w := 240 + stride) (show t < t' by omega)
          omega
      · exact f4 t (by omega) (by omega) o ho

/-- What the buffer holds before fields are written. -/
def rawByte {F : Type} (p : Param F) (skip : Nat) (b : Arr Byte) (t o x : Nat) : Byte :=
  if p.rule.cnt .copy ≠ 0 then p.c.val ((t + skip) * 240 + o) else b.val x

theorem insertParam_spec {F : Type} (ops : FloatOps F) (fs : F → BitVec 16)
    (en : F → BitVec 16 → BitVec 32) (p : Param F) (hp : WF p) (hl : HdrLayout p.rule)
    (stride skip sz : Nat)
    (hfs : ∀ x, x < p.f.len → ops.findScalar (p.f.val x) = .ok (fs (p.f.val x)))
    (hen : ∀ x, x < p.f.len → ∀ v, ops.encode (p.f.val x) v = .ok (en (p.f.val x) v))
    (hfull : p.rule.fullextent = true) (hst : p.rule.start = 0) (b : Arr Byte)
    (hsz : sz + skip ≤ p.sz) (hb : (240 + stride) * sz ≤ b.len) (hb' : b.len ≤ 2 ^ 64) :
    ∃ b', insertParam ops sz p b stride skip = .ok (b', p.rule) ∧ b'.len = b.len ∧
      (∀ t, t < sz → Holds fs en p (t + skip) ((240 + stride) * t) b') ∧
      (∀ t, t < sz → ∀ o, o < 240 → ¬ Named p.rule ((240 + stride) * t) ((240 + stride) * t + o) →
        b'.val ((240 + stride) * t + o) = rawByte p skip b t o ((240 + stride) * t + o)) ∧
      ∀ x, (∀ t, t < sz → ¬ ((240 + stride) * t ≤ x ∧ x < (240 + stride) * t + 240)) →
        b'.val x = b.val x := by
  unfold insertParam
  by_cases hz : sz = 0
  · subst hz
    rw [if_pos rfl]
    exact ⟨b, rfl, rfl, fun t h => by omega, fun t h => by omega, fun _ _ => rfl⟩
  rw [if_neg hz]
  -- the raw copy
  have hraw : ∃ b1, rawIn p sz stride skip b = .ok b1 ∧ b1.len = b.len ∧
      (∀ x, (∀ t, t < sz → ¬ ((240 + stride) * t ≤ x ∧ x < (240 + stride) * t + 240)) →
        b1.val x = b.val x) ∧
      ∀ t, t < sz → ∀ o, o < 240 →
        b1.val ((240 + stride) * t + o) = rawByte p skip b t o ((240 + stride) * t + o) := by
    unfold rawIn
    by_cases hcp : p.rule.cnt .copy ≠ 0
    · rw [if_pos hcp]
      have hc := hp.c
      rw [if_pos hcp] at hc
      by_cases hs : stride = 0
      · subst hs
        rw [if_pos rfl]
        obtain ⟨b1, e1, e2, e3, e4⟩ := Arr.copy_spec (sz * 240) p.c (skip * 240) b 0
          (by rw [hc]; omega) (by omega)
        refine ⟨b1, e1, e2, ?_, ?_⟩
        · intro x hx
          refine e3 x fun hh => ?_
          refine hx (x / 240) ?_ ⟨?_, ?_⟩ <;> omega
        · intro t ht o ho
          unfold rawByte
          rw [if_pos hcp]
          have := e4 (240 * t + o) (by omega)
          rw [show (240 + 0) * t + o = 0 + (240 * t + o) by omega, this,
            show skip * 240 + (240 * t + o) = (t + skip) * 240 + o by omega]
      · rw [if_neg hs]
        obtain ⟨b1, e1, e2, e3, e4⟩ := copyIn_spec p hc stride skip sz 0 b (by omega) (by simpa using hb)
        refine ⟨b1, e1, e2, fun x hx => e3 x fun t _ ht => hx t (by omega), ?_⟩
        intro t ht o ho
        unfold rawByte
        rw [if_pos hcp]
        exact e4 t (by omega) (by omega) o ho
    · rw [if_neg hcp]
      refine ⟨b, rfl, rfl, fun _ _ => rfl, fun t _ o _ => ?_⟩
      unfold rawByte; rw [if_neg hcp]
  obtain ⟨b1, g1, g2, g3, g4⟩ := hraw
  obtain ⟨b2, f1, f2, f3, f4⟩ := insLoop_spec ops fs en p hp hl stride skip hfs hen hfull sz 0 b1
    (by omega) (by simpa [g2] using hb) (by omega)
  simp only [g1, Res.ok_bind, hst]
  refine ⟨b2, f1, by omega, fun t ht => f4 t (by omega) (by omega), ?_, ?_⟩
  · intro t ht o ho hn
    rw [f3 _ fun t' _ ht' hn' => ?_]
    · exact g4 t ht o ho
    · by_cases he : t' = t
      · subst he; exact hn hn'
      · have hb := hn'.bounds hl
        rcases Nat.lt_or_gt_of_ne he with h | h
        · have := base_mono (w := 240 + stride) h; omega
        · have := base_mono (w := 240 + stride) h; omega
  · intro x hx
    rw [f3 x fun t _ ht hn => hx t (by omega) (hn.bounds hl)]
    exact g3 x hx

/-! ## `extractParam` -/

/-- Everything but `f`, `i`, `s` agrees, and lengths agree. -/
structure SameShape {F : Type} (p q : Param F) : Prop where
  rule : q.rule = p.rule
  sz : q.sz = p.sz
  f : q.f.len = p.f.len
  i : q.i.len = p.i.len
  s : q.s.len = p.s.len
  t : q.t = p.t

theorem SameShape.refl {F : Type} (p : Param F) : SameShape p p := ⟨rfl, rfl, rfl, rfl, rfl, rfl⟩

theorem SameShape.trans {F : Type} {p q r : Param F} (h : SameShape p q) (h' : SameShape q r) :
    SameShape p r :=
  ⟨h'.rule.trans h.rule, h'.sz.trans h.sz, h'.f.trans h.f, h'.i.trans h.i, h'.s.trans h.s, h'.t.trans h.t⟩

/-- Row `row` of `q'` holds what the header at `base` says, for the entries in `l`. -/
def Decoded {F : Type} (ops : FloatOps F) (b : Arr Byte) (row base : Nat) (q : Param F) (l : Map) : Prop :=
  ∀ m e, (m, some e) ∈ l →
    (e.kind = .short → q.s.val (row * q.rule.cnt .short + e.num) = val16 b (base + (e.loc - 1))) ∧
    (e.kind = .long → q.i.val (row * q.rule.cnt .long + e.num) = (val32 b (base + (e.loc - 1))).signExtend 64) ∧
    (e.kind = .float → q.f.val (row * q.rule.cnt .float + e.num) =
      ops.decode (val16 b (base + (e.scalLoc - 1))) (val32 b (base + (e.loc - 1))))

/-- Only slots of row `row` used by entries of `l` differ. -/
def OnlyRow {F : Type} (row : Nat) (q q' : Param F) (l : Map) : Prop :=
  (∀ x, (∀ m e, (m, some e) ∈ l → e.kind = .short → x ≠ row * q.rule.cnt .short + e.num) → q'.s.val x = q.s.val x) ∧
  (∀ x, (∀ m e, (m, some e) ∈ l → e.kind = .long → x ≠ row * q.rule.cnt .long + e.num) → q'.i.val x = q.i.val x) ∧
  (∀ x, (∀ m e, (m, some e) ∈ l → e.kind = .float → x ≠ row * q.rule.cnt .float + e.num) → q'.f.val x = q.f.val x)

theorem nums_tail_nodup {k : Kind} {q : Nat × Option Entry} {l : Map} (h : (nums k (q :: l)).Nodup) :
    (nums k l).Nodup := by
  unfold nums at *
  cases hs : slot k q with
  | none => rwa [List.filterMap_cons_none hs] at h
  | some w => rw [List.filterMap_cons_some hs, List.nodup_cons] at h; exact h.2

theorem nums_head_ne {m : Nat} {e : Entry} {l : Map} (h : (nums e.kind ((m, some e) :: l)).Nodup)
    {m' : Nat} {e' : Entry} (h' : (m', some e') ∈ l) (hk : e'.kind = e.kind) : e'.num ≠ e.num := by
  unfold nums at h
  rw [List.filterMap_cons_some (slot_self m e), List.nodup_cons] at h
  intro hn
  exact h.1 (List.mem_filterMap.mpr ⟨_, h', by rw [← hk, ← hn]; exact slot_self m' e'⟩)

theorem extEntries_spec {F : Type} (ops : FloatOps F) (b : Arr Byte) (row base : Nat) (l : Map) :
    ∀ (q : Param F), WF q → HdrLayout q.rule → row < q.sz → base + 240 ≤ b.len → b.len ≤ 2 ^ 64 →
    (∀ x ∈ l, x ∈ q.rule.map) → (∀ k, (nums k l).Nodup) →
    ∃ q', extEntries ops b row 0 base q l = .ok q' ∧ SameShape q q' ∧ q'.c = q.c ∧
      Decoded ops b row base q' l ∧ OnlyRow row q q' l := by
  induction l with
  | nil =>
    intro q _ _ _ _ _ _ _
    exact ⟨q, rfl, .refl q, rfl, fun m e h => by simp at h, fun _ _ => rfl, fun _ _ => rfl, fun _ _ => rfl⟩
  | cons y l ih =>
    intro q hq hl hrow hb hb' hsub hnd
    obtain ⟨m, o⟩ := y
    have hmem := hsub _ List.mem_cons_self
    obtain ⟨e, he⟩ := hq.inv.nonull _ hmem
    simp only at he; subst he
    have hlt := num_lt hq.inv hmem
    have hidx : ∀ k, e.kind = k → row * q.rule.cnt k + e.num < q.sz * q.rule.cnt k := by
      intro k hk
      rw [Nat.mul_comm row]
      exact idx_lt (by rw [← hk]; exact hlt) hrow
    have hnd' : ∀ k, (nums k l).Nodup := fun k => nums_tail_nodup (hnd k)
    have hsub' : ∀ x ∈ l, x ∈ q.rule.map := fun x hx => hsub x (List.mem_cons_of_mem _ hx)
    -- one step
    have step : ∃ q1, extEntry ops b row 0 base q (some e) = .ok q1 ∧ SameShape q q1 ∧ q1.c = q.c ∧
        Decoded ops b row base q1 [(m, some e)] ∧ OnlyRow row q q1 [(m, some e)] := by
      cases hk : e.kind with
      | short =>
        have hf := hl.fits m e hmem (by simp [Valued, hk])
        have hi := hidx _ hk
        rw [hk] at hf
        have hw : e.loc + 2 ≤ 241 := hf.2
        unfold extEntry
        simp only [hk]
        rw [relLoc_zero hf.1 (by omega), rd16_ok (by omega) hb', Res.ok_bind, Arr.set_ok (by rw [hq.s]; exact hi)]
        refine ⟨_, rfl, ⟨rfl, rfl, rfl, rfl, rfl, rfl⟩, rfl, ?_, ?_⟩
        · intro m' e' h'
          rw [List.mem_singleton] at h'; cases h'
          simp [hk]
        · refine ⟨fun x hx => ?_, fun _ _ => rfl, fun _ _ => rfl⟩
          show (if x = _ then _ else _) = _
          rw [if_neg (hx m e (List.mem_singleton.mpr rfl) hk)]
      | long =>
        have hf := hl.fits m e hmem (by simp [Valued, hk])
        have hi := hidx _ hk
        rw [hk] at hf
        have hw : e.loc + 4 ≤ 241 := hf.2
        unfold extEntry
        simp only [hk]
        rw [relLoc_zero hf.1 (by omega), rd32_ok (by omega) hb', Res.ok_bind, Arr.set_ok (by rw [hq.i]; exact hi)]
        refine ⟨_, rfl, ⟨rfl, rfl, rfl, rfl, rfl, rfl⟩, rfl, ?_, ?_⟩
        · intro m' e' h'
          rw [List.mem_singleton] at h'; cases h'
          simp [hk]
        · refine ⟨fun _ _ => rfl, fun x hx => ?_, fun _ _ => rfl⟩
          show (if x = _ then _ else _) = _
          rw [if_neg (hx m e (List.mem_singleton.mpr rfl) hk)]
      | float =>
        have hf := hl.fits m e hmem (by simp [Valued, hk])
        have hs := hl.sfits m e hmem hk
        have hi := hidx _ hk
        rw [hk] at hf
        have hw : e.loc + 4 ≤ 241 := hf.2
        unfold extEntry
        simp only [hk]
        rw [relLoc_zero hf.1 (by omega), relLoc_zero hs.1 (by omega), rd16_ok (by omega) hb', Res.ok_bind,
          rd32_ok (by omega) hb', Res.ok_bind, Arr.set_ok (by rw [hq.f]; exact hi)]
        refine ⟨_, rfl, ⟨rfl, rfl, rfl, rfl, rfl, rfl⟩, rfl, ?_, ?_⟩
        · intro m' e' h'
          rw [List.mem_singleton] at h'; cases h'
          simp [hk]
        · refine ⟨fun _ _ => rfl, fun _ _ => rfl, fun x hx => ?_⟩
          show (if x = _ then _ else _) = _
          rw [if_neg (hx m e (List.mem_singleton.mpr rfl) hk)]
      | index =>
        unfold extEntry
        simp only [hk]
        refine ⟨_, rfl, .refl q, rfl, ?_, fun _ _ => rfl, fun _ _ => rfl, fun _ _ => rfl⟩
        intro m' e' h'
        rw [List.mem_singleton] at h'; cases h'
        simp [hk]
      | copy =>
        unfold extEntry
        simp only [hk]
        refine ⟨_, rfl, .refl q, rfl, ?_, fun _ _ => rfl, fun _ _ => rfl, fun _ _ => rfl⟩
        intro m' e' h'
        rw [List.mem_singleton] at h'; cases h'
        simp [hk]
    obtain ⟨q1, a1, a2, a3, a4, a5⟩ := step
    have hq1 : WF q1 := by
      refine ⟨by rw [a2.rule]; exact hq.inv, ?_, ?_, ?_, ?_, ?_⟩
      · rw [a2.f, a2.rule, a2.sz, hq.f]
      · rw [a2.i, a2.rule, a2.sz, hq.i]
      · rw [a2.s, a2.rule, a2.sz, hq.s]
      · rw [a2.t, a2.rule, a2.sz, hq.t]
      · rw [a3, a2.rule, a2.sz, hq.c]
    obtain ⟨q2, b1, b2, b3, b4, b5⟩ := ih q1 hq1 (by rw [a2.rule]; exact hl) (by rw [a2.sz]; exact hrow) hb hb'
      (by rw [a2.rule]; exact hsub') hnd'
    refine ⟨q2, ?_, a2.trans b2, by rw [b3, a3], ?_, ?_⟩
    · unfold extEntries; rw [a1, Res.ok_bind, b1]
    · intro m' e' h'
      rcases List.mem_cons.mp h' with h' | h'
      · cases h'
        have d := a4 m e (List.mem_singleton.mpr rfl)
        rw [b2.rule]
        refine ⟨fun hk => ?_, fun hk => ?_, fun hk => ?_⟩
        · rw [b5.1 _ fun m2 e2 h2 hk2 heq => ?_]
          · exact d.1 hk
          · have := nums_head_ne (hnd e.kind) h2 (by rw [hk2, hk]); omega
        · rw [b5.2.1 _ fun m2 e2 h2 hk2 heq => ?_]
          · exact d.2.1 hk
          · have := nums_head_ne (hnd e.kind) h2 (by rw [hk2, hk]); omega
        · rw [b5.2.2 _ fun m2 e2 h2 hk2 heq => ?_]
          · exact d.2.2 hk
          · have := nums_head_ne (hnd e.kind) h2 (by rw [hk2, hk]); omega
      · exact b4 m' e' h'
    · refine ⟨fun x hx => ?_, fun x hx => ?_, fun x hx => ?_⟩
      · rw [b5.1 x fun m2 e2 h2 hk2 => by rw [a2.rule]; exact hx m2 e2 (List.mem_cons_of_mem _ h2) hk2]
        exact a5.1 x fun m2 e2 h2 hk2 => hx m2 e2 (by rw [List.mem_singleton] at h2; rw [h2]; exact List.mem_cons_self) hk2
      · rw [b5.2.1 x fun m2 e2 h2 hk2 => by rw [a2.rule]; exact hx m2 e2 (List.mem_cons_of_mem _ h2) hk2]
        exact a5.2.1 x fun m2 e2 h2 hk2 => hx m2 e2 (by rw [List.mem_singleton] at h2; rw [h2]; exact List.mem_cons_self) hk2
      · rw [b5.2.2 x fun m2 e2 h2 hk2 => by rw [a2.rule]; exact hx m2 e2 (List.mem_cons_of_mem _ h2) hk2]
        exact a5.2.2 x fun m2 e2 h2 hk2 => hx m2 e2 (by rw [List.mem_singleton] at h2; rw [h2]; exact List.mem_cons_self) hk2

/-- Only slots of rows `[lo, hi)` differ. -/
def OnlyRows {F : Type} (lo hi : Nat) (q q' : Param F) : Prop :=
  (∀ x, (∀ row m e, lo ≤ row → row < hi → (m, some e) ∈ q.rule.map → e.kind = .short →
    x ≠ row * q.rule.cnt .short + e.num) → q'.s.val x = q.s.val x) ∧
  (∀ x, (∀ row m e, lo ≤ row → row < hi → (m, some e) ∈ q.rule.map → e.kind = .long →
    x ≠ row * q.rule.cnt .long + e.num) → q'.i.val x = q.i.val x) ∧
  (∀ x, (∀ row m e, lo ≤ row → row < hi → (m, some e) ∈ q.rule.map → e.kind = .float →
    x ≠ row * q.rule.cnt .float + e.num) → q'.f.val x = q.f.val x)

theorem SameShape.wf {F : Type} {q q' : Param F} (hq : WF q) (h : SameShape q q')
    (hc : q'.c.len = q.c.len) : WF q' := by
  refine ⟨by rw [h.rule]; exact hq.inv, ?_, ?_, ?_, ?_, ?_⟩
  · rw [h.f, h.rule, h.sz, hq.f]
  · rw [h.i, h.rule, h.sz, hq.i]
  · rw [h.s, h.rule, h.sz, hq.s]
  · rw [h.t, h.rule, h.sz, hq.t]
  · rw [hc, h.rule, h.sz, hq.c]

theorem row_ne {r : Rule} (hr : Inv r) {m m' : Nat} {e e' : Entry} {k : Kind} (hm : (m, some e) ∈ r.map)
    (hm' : (m', some e') ∈ r.map) (hk : e.kind = k) (hk' : e'.kind = k) {row row' : Nat}
    (hne : row ≠ row') : row * r.cnt k + e.num ≠ row' * r.cnt k + e'.num := by
  intro h
  have h1 := num_lt hr hm
  have h2 := num_lt hr hm'
  rw [hk] at h1; rw [hk'] at h2
  rw [Nat.mul_comm row, Nat.mul_comm row'] at h
  exact hne (idx_inj h1 h2 h).1

theorem extLoop_spec {F : Type} (ops : FloatOps F) (b : Arr Byte) (boff stride skip : Nat) (n : Nat) :
    ∀ (i : Nat) (q : Param F), WF q → HdrLayout q.rule → q.rule.fullextent = true → q.rule.start = 0 →
    i + n + skip ≤ q.sz → boff + (240 + stride) * (i + n) ≤ b.len → b.len ≤ 2 ^ 64 →
    ∃ q', extLoop ops b boff stride skip q i n = .ok q' ∧ SameShape q q' ∧ q'.c = q.c ∧
      (∀ t, i ≤ t → t < i + n → Decoded ops b (t + skip) (boff + (240 + stride) * t) q' q.rule.map) ∧
      OnlyRows (i + skip) (i + n + skip) q q' := by
  induction n with
  | zero =>
    intro i q _ _ _ _ _ _ _
    exact ⟨q, rfl, .refl q, rfl, fun t h1 h2 => by omega, fun _ _ => rfl, fun _ _ => rfl, fun _ _ => rfl⟩
  | succ n ih =>
    intro i q hq hl hfull hst h1 h2 h3
    have h2' : boff + (240 + stride) * i + (240 + stride) ≤ b.len := by
      have := base_mono (w := 240 + stride) (show i < i + (n + 1) by omega); omega
    obtain ⟨q1, a1, a2, a3, a4, a5⟩ := extEntries_spec ops b (i + skip) (boff + (240 + stride) * i)
      q.rule.map q hq hl (by omega) (by omega) h3 (fun x h => h) hq.inv.nodup
    have hq1 := a2.wf hq (by rw [a3])
    obtain ⟨q2, b1, b2, b3, b4, b5⟩ := ih (i + 1) q1 hq1 (by rw [a2.rule]; exact hl)
      (by rw [a2.rule]; exact hfull) (by rw [a2.rule]; exact hst) (by rw [a2.sz]; omega)
      (by rw [show i + 1 + n = i + (n + 1) by omega]; exact h2) h3
    rw [a2.rule] at b4
    unfold OnlyRows at b5
    rw [a2.rule] at b5
    refine ⟨q2, ?_, a2.trans b2, by rw [b3, a3], ?_, ?_⟩
    · unfold extLoop
      rw [extent_full hfull, Res.ok_bind]
      simp only
      rw [hst]
      have : ({ q with rule := q.rule } : Param F) = q := rfl
      rw [a1, Res.ok_bind, b1]
    · intro t ht ht'
      by_cases hti : t = i
      · subst hti
        intro m e hm
        have d := a4 m e hm
        rw [a2.rule] at d
        rw [b2.rule, a2.rule]
        refine ⟨fun hk => ?_, fun hk => ?_, fun hk => ?_⟩
        · rw [b5.1 _ fun row m' e' hr1 hr2 hm' hk' => row_ne hq.inv hm hm' hk hk' (by omega)]
          exact d.1 hk
        · rw [b5.2.1 _ fun row m' e' hr1 hr2 hm' hk' => row_ne hq.inv hm hm' hk hk' (by omega)]
          exact d.2.1 hk
        · rw [b5.2.2 _ fun row m' e' hr1 hr2 hm' hk' => row_ne hq.inv hm hm' hk hk' (by omega)]
          exact d.2.2 hk
      · exact b4 t (by omega) (by omega)
    · refine ⟨fun x hx => ?_, fun x hx => ?_, fun x hx => ?_⟩
      · rw [b5.1 x fun row m e hr1 hr2 => hx row m e (by omega) (by omega)]
        exact a5.1 x fun m e hm hk => hx (i + skip) m e (by omega) (by omega) hm hk
      · rw [b5.2.1 x fun row m e hr1 hr2 => hx row m e (by omega) (by omega)]
        exact a5.2.1 x fun m e hm hk => hx (i + skip) m e (by omega) (by omega) hm hk
      · rw [b5.2.2 x fun row m e hr1 hr2 => hx row m e (by omega) (by omega)]
        exact a5.2.2 x fun m e hm hk => hx (i + skip) m e (by omega) (by omega) hm hk

theorem copyOut_spec {F : Type} (b : Arr Byte) (boff stride skip n : Nat) :
    ∀ (i : Nat) (q : Param F), q.c.len = q.sz * 240 → i + n + skip ≤ q.sz →
    boff + (240 + stride) * (i + n) ≤ b.len →
    ∃ c', copyOut b boff stride skip q i n = .ok { q with c := c' } ∧ c'.len = q.c.len ∧
      (∀ x, (∀ t, i ≤ t → t < i + n → ¬ ((t + skip) * 240 ≤ x ∧ x < (t + skip) * 240 + 240)) →
        c'.val x = q.c.val x) ∧
      ∀ t, i ≤ t → t < i + n → ∀ o, o < 240 →
        c'.val ((t + skip) * 240 + o) = b.val (boff + (240 + stride) * t + o) := by
  induction n with
  | zero => intro i q _ _ _; exact ⟨q.c, rfl, rfl, fun _ _ => rfl, fun t h1 h2 => by omega⟩
  | succ n ih =>
    intro i q hc h1 h2
    have h2' : boff + (240 + stride) * i + (240 + stride) ≤ b.len := by
      have := base_mono (w := 240 + stride) (show i < i + (n + 1) by omega); omega
    have hcm : i * (stride + 240) = (240 + stride) * i := by rw [Nat.mul_comm, Nat.add_comm stride]
    obtain ⟨c1, e1, e2, e3, e4⟩ := Arr.copy_spec 240 b (boff + (240 + stride) * i) q.c ((i + skip) * 240)
      (by omega) (by rw [hc]; omega)
    obtain ⟨c2, f1, f2, f3, f4⟩ := ih (i + 1) { q with c := c1 } (by show c1.len = q.sz * 240; omega)
      (by show i + 1 + n + skip ≤ q.sz; omega)
      (by rw [show i + 1 + n = i + (n + 1) by omega]; exact h2)
    refine ⟨c2, ?_, by rw [f2]; exact e2, ?_, ?_⟩
    · unfold copyOut
      rw [hcm, e1, Res.ok_bind, f1]
    · intro x hx
      rw [f3 x fun t ht ht' => hx t (by omega) (by omega)]
      exact e3 x (hx i (by omega) (by omega))
    · intro t ht ht' o ho
      by_cases hti : t = i
      · subst hti
        rw [f3 _ fun t' h1' h2' hn => by omega]
        exact e4 o ho
      · exact f4 t (by omega) (by omega) o ho

theorem rawOut_spec {F : Type} (b : Arr Byte) (boff sz stride skip : Nat) (q : Param F) (hq : WF q)
    (h1 : sz + skip ≤ q.sz) (h2 : boff + (240 + stride) * sz ≤ b.len) :
    ∃ c', rawOut b boff sz stride skip q = .ok { q with c := c' } ∧ c'.len = q.c.len ∧
      (q.rule.cnt .copy = 0 → c' = q.c) ∧
      (∀ x, (∀ t, t < sz → ¬ ((t + skip) * 240 ≤ x ∧ x < (t + skip) * 240 + 240)) → c'.val x = q.c.val x) ∧
      (q.rule.cnt .copy ≠ 0 → ∀ t, t < sz → ∀ o, o < 240 →
        c'.val ((t + skip) * 240 + o) = b.val (boff + (240 + stride) * t + o)) := by
  unfold rawOut
  by_cases hcp : q.rule.cnt .copy ≠ 0
  · rw [if_pos hcp]
    have hc := hq.c
    rw [if_pos hcp] at hc
    by_cases hs : stride = 0
    · subst hs
      rw [if_pos rfl]
      obtain ⟨c1, e1, e2, e3, e4⟩ := Arr.copy_spec (sz * 240) b boff q.c (skip * 240)
        (by omega) (by rw [hc]; omega)
      rw [e1]
      refine ⟨c1, rfl, e2, fun h => absurd h hcp, ?_, ?_⟩
      · intro x hx
        refine e3 x fun hh => ?_
        refine hx (x / 240 - skip) ?_ ⟨?_, ?_⟩ <;> omega
      · intro _ t ht o ho
        have := e4 (240 * t + o) (by omega)
        rw [show (t + skip) * 240 + o = skip * 240 + (240 * t + o) by omega, this,
          show boff + (240 * t + o) = boff + (240 + 0) * t + o by omega]
    · rw [if_neg hs]
      obtain ⟨c1, e1, e2, e3, e4⟩ := copyOut_spec b boff stride skip sz 0 q hc (by omega) (by simpa using h2)
      exact ⟨c1, e1, e2, fun h => absurd h hcp, fun x hx => e3 x fun t _ ht => hx t (by omega),
        fun _ t ht o ho => e4 t (by omega) (by omega) o ho⟩
  · rw [if_neg hcp]
    exact ⟨q.c, rfl, rfl, fun _ => rfl, fun _ _ => rfl, fun h => absurd h hcp⟩

theorem extractParam_spec {F : Type} (ops : FloatOps F) (b : Arr Byte) (boff sz stride skip : Nat)
    (q : Param F) (hq : WF q) (hl : HdrLayout q.rule) (hfull : q.rule.fullextent = true)
    (hst : q.rule.start = 0) (h1 : sz + skip ≤ q.sz) (h2 : boff + (240 + stride) * sz ≤ b.len)
    (h3 : b.len ≤ 2 ^ 64) :
    ∃ q', extractParam ops sz b boff q stride skip = .ok q' ∧ SameShape q q' ∧ q'.c.len = q.c.len ∧
      (∀ t, t < sz → Decoded ops b (t + skip) (boff + (240 + stride) * t) q' q.rule.map) ∧
      OnlyRows skip (sz + skip) q q' ∧
      (q.rule.cnt .copy = 0 → q'.c = q.c) ∧
      (∀ x, (∀ t, t < sz → ¬ ((t + skip) * 240 ≤ x ∧ x < (t + skip) * 240 + 240)) → q'.c.val x = q.c.val x) ∧
      (q.rule.cnt .copy ≠ 0 → ∀ t, t < sz → ∀ o, o < 240 →
        q'.c.val ((t + skip) * 240 + o) = b.val (boff + (240 + stride) * t + o)) := by
  unfold extractParam
  by_cases hz : sz = 0
  · subst hz
    rw [if_pos rfl]
    exact ⟨q, rfl, .refl q, rfl, fun t h => by omega, ⟨fun _ _ => rfl, fun _ _ => rfl, fun _ _ => rfl⟩,
      fun _ => rfl, fun _ _ => rfl, fun _ t h => by omega⟩
  rw [if_neg hz]
  obtain ⟨c', e1, e2, e3, e4, e5⟩ := rawOut_spec b boff sz stride skip q hq h1 h2
  rw [e1, Res.ok_bind]
  have hq1 : WF { q with c := c' } := ⟨hq.inv, hq.f, hq.i, hq.s, hq.t, by
    show c'.len = _; rw [e2]; exact hq.c⟩
  obtain ⟨q', f1, f2, f3, f4, f5⟩ := extLoop_spec ops b boff stride skip sz 0 { q with c := c' } hq1 hl hfull hst
    (by show 0 + sz + skip ≤ q.sz; omega) (by simpa using h2) h3
  rw [Nat.zero_add, Nat.zero_add] at f5
  refine ⟨q', f1, ⟨f2.rule, f2.sz, f2.f, f2.i, f2.s, f2.t⟩, by rw [f3]; exact e2,
    fun t ht => f4 t (by omega) (by omega), f5, ?_, ?_, ?_⟩
  · intro h; rw [f3]; exact e3 h
  · intro x hx; rw [f3]; exact e4 x hx
  · intro h t ht o ho; rw [f3]; exact e5 h t ht o ho

/-! ## `cpyPrm` -/

/-- Value of an item at a row, whatever its kind. -/
def item {F : Type} (p : Param F) (row : Nat) (e : Entry) : F ⊕ BitVec 64 ⊕ BitVec 16 ⊕ BitVec 64 ⊕ List Byte :=
  match e.kind with
  | .float => .inl (p.f.val (p.rule.cnt .float * row + e.num))
  | .long => .inr (.inl (p.i.val (p.rule.cnt .long * row + e.num)))
  | .short => .inr (.inr (.inl (p.s.val (p.rule.cnt .short * row + e.num))))
  | .index => .inr (.inr (.inr (.inl (p.t.val (p.rule.cnt .index * row + e.num)))))
  | .copy => .inr (.inr (.inr (.inr ((List.range 240).map fun o => p.c.val (row * 240 + o)))))

theorem idx_ne {r : Rule} (hr : Inv r) {m m' : Nat} {e e' : Entry} {k : Kind} (hm : (m, some e) ∈ r.map)
    (hm' : (m', some e') ∈ r.map) (hk : e.kind = k) (hk' : e'.kind = k) {row row' : Nat}
    (hne : ¬ (row = row' ∧ m = m')) : r.cnt k * row + e.num ≠ r.cnt k * row' + e'.num := by
  intro h
  have h1 := num_lt hr hm
  have h2 := num_lt hr hm'
  rw [hk] at h1; rw [hk'] at h2
  obtain ⟨h3, h4⟩ := idx_inj h1 h2 h
  exact hne ⟨h3, num_inj hr hm hm' (by rw [hk, hk']) h4⟩

/-- Same rule, sizes and raw headers. -/
structure SameFrame {F : Type} (p q : Param F) : Prop where
  rule : q.rule = p.rule
  sz : q.sz = p.sz
  f : q.f.len = p.f.len
  i : q.i.len = p.i.len
  s : q.s.len = p.s.len
  t : q.t.len = p.t.len
  c : q.c = p.c

theorem SameFrame.refl {F : Type} (p : Param F) : SameFrame p p := ⟨rfl, rfl, rfl, rfl, rfl, rfl, rfl⟩

theorem SameFrame.trans {F : Type} {p q r : Param F} (h : SameFrame p q) (h' : SameFrame q r) :
    SameFrame p r :=
  ⟨h'.rule.trans h.rule, h'.sz.trans h.sz, h'.f.trans h.f, h'.i.trans h.i, h'.s.trans h.s, h'.t.trans h.t,
    h'.c.trans h.c⟩

theorem SameFrame.wf {F : Type} {q q' : Param F} (hq : WF q) (h : SameFrame q q') : WF q' := by
  refine ⟨by rw [h.rule]; exact hq.inv, ?_, ?_, ?_, ?_, ?_⟩
  · rw [h.f, h.rule, h.sz, hq.f]
  · rw [h.i, h.rule, h.sz, hq.i]
  · rw [h.s, h.rule, h.sz, hq.s]
  · rw [h.t, h.rule, h.sz, hq.t]
  · rw [h.c, h.rule, h.sz, hq.c]

theorem cpyEntry_spec {F : Type} (j k : Nat) (src dst : Param F) (hs : WF src) (hd : WF dst)
    (hj : j < src.sz) (hk : k < dst.sz) (m : Nat) (se : Entry) (hm : (m, some se) ∈ src.rule.map) :
    ∃ d1, cpyEntry j k src dst m (some se) = .ok d1 ∧ SameFrame dst d1 ∧
      (∀ de, (m, some de) ∈ dst.rule.map → de.kind = se.kind → se.kind ≠ .copy → item d1 k de = item src j se) ∧
      (∀ row m' de', (m', some de') ∈ dst.rule.map → ¬ (row = k ∧ m' = m) →
        item d1 row de' = item dst row de') := by
  have hnum := num_lt hs.inv hm
  unfold cpyEntry
  cases hf : find dst.rule.map m with
  | none =>
    refine ⟨dst, rfl, .refl dst, ?_, fun _ _ _ _ _ => rfl⟩
    intro de hde _ _
    rw [find_of_mem hd.inv.keys hde] at hf; cases hf
  | some o =>
    have hmem := find_mem hf
    obtain ⟨de, hde⟩ := hd.inv.nonull _ hmem
    simp only at hde; subst hde
    have uniq : ∀ de', (m, some de') ∈ dst.rule.map → de' = de := by
      intro de' h'
      have := find_of_mem hd.inv.keys h'
      rw [hf] at this; cases this; rfl
    have hdn := num_lt hd.inv hmem
    simp only
    by_cases hke : de.kind = se.kind
    · rw [if_pos hke]
      cases hsk : se.kind with
      | float =>
        simp only
        rw [hsk] at hnum hke; rw [hke] at hdn
        rw [Arr.get_ok (by rw [hs.f]; exact idx_lt hnum hj), Res.ok_bind,
          Arr.set_ok (by rw [hd.f]; exact idx_lt hdn hk)]
        refine ⟨_, rfl, ⟨rfl, rfl, rfl, rfl, rfl, rfl, rfl⟩, ?_, ?_⟩
        · intro de' h' _ _
          rw [uniq de' h']
          simp [item, hke, hsk]
        · intro row m' de' h' hne
          cases hk' : de'.kind <;> simp only [item, hk']
          congr 1
          exact if_neg (idx_ne hd.inv h' hmem hk' hke hne)
      | long =>
        simp only
        rw [hsk] at hnum hke; rw [hke] at hdn
        rw [Arr.get_ok (by rw [hs.i]; exact idx_lt hnum hj), Res.ok_bind,
          Arr.set_ok (by rw [hd.i]; exact idx_lt hdn hk)]
        refine ⟨_, rfl, ⟨rfl, rfl, rfl, rfl, rfl, rfl, rfl⟩, ?_, ?_⟩
        · intro de' h' _ _
          rw [uniq de' h']
          simp [item, hke, hsk]
        · intro row m' de' h' hne
          cases hk' : de'.kind <;> simp only [item, hk']
          congr 2
          exact if_neg (idx_ne hd.inv h' hmem hk' hke hne)
      | short =>
        simp only
        rw [hsk] at hnum hke; rw [hke] at hdn
        rw [Arr.get_ok (by rw [hs.s]; exact idx_lt hnum hj), Res.ok_bind,
          Arr.set_ok (by rw [hd.s]; exact idx_lt hdn hk)]
        refine ⟨_, rfl, ⟨rfl, rfl, rfl, rfl, rfl, rfl, rfl⟩, ?_, ?_⟩
        · intro de' h' _ _
          rw [uniq de' h']
          simp [item, hke, hsk]
        · intro row m' de' h' hne
          cases hk' : de'.kind <;> simp only [item, hk']
          congr 3
          exact if_neg (idx_ne hd.inv h' hmem hk' hke hne)
      | index =>
        simp only
        rw [hsk] at hnum hke; rw [hke] at hdn
        rw [Arr.get_ok (by rw [hs.t]; exact idx_lt hnum hj), Res.ok_bind,
          Arr.set_ok (by rw [hd.t]; exact idx_lt hdn hk)]
        refine ⟨_, rfl, ⟨rfl, rfl, rfl, rfl, rfl, rfl, rfl⟩, ?_, ?_⟩
        · intro de' h' _ _
          rw [uniq de' h']
          simp [item, hke, hsk]
        · intro row m' de' h' hne
          cases hk' : de'.kind <;> simp only [item, hk']
          congr 4
          exact if_neg (idx_ne hd.inv h' hmem hk' hke hne)
      | copy =>
        exact ⟨dst, rfl, .refl dst, fun _ _ _ h => absurd rfl h, fun _ _ _ _ _ => rfl⟩
    · rw [if_neg hke]
      refine ⟨dst, rfl, .refl dst, ?_, fun _ _ _ _ _ => rfl⟩
      intro de' h' hh
      rw [uniq de' h'] at hh
      exact absurd hh hke

theorem cpyEntries_spec {F : Type} (j k : Nat) (src : Param F) (hs : WF src) (hj : j < src.sz) (l : Map) :
    ∀ (dst : Param F), WF dst → k < dst.sz → (∀ x ∈ l, x ∈ src.rule.map) → (l.map Prod.fst).Nodup →
    ∃ d1, cpyEntries j k src dst l = .ok d1 ∧ SameFrame dst d1 ∧
      (∀ m se de, (m, some se) ∈ l → (m, some de) ∈ dst.rule.map → de.kind = se.kind → se.kind ≠ .copy →
        item d1 k de = item src j se) ∧
      (∀ row m' de', (m', some de') ∈ dst.rule.map → (row = k → ∀ x ∈ l, x.1 ≠ m') →
        item d1 row de' = item dst row de') := by
  induction l with
  | nil =>
    intro dst _ _ _ _
    exact ⟨dst, rfl, .refl dst, fun _ _ _ h => by simp at h, fun _ _ _ _ _ => rfl⟩
  | cons y l ih =>
    intro dst hd hk hsub hnd
    obtain ⟨m, o⟩ := y
    have hmem := hsub _ List.mem_cons_self
    obtain ⟨se, he⟩ := hs.inv.nonull _ hmem
    simp only at he; subst he
    rw [List.map_cons, List.nodup_cons] at hnd
    obtain ⟨d1, a1, a2, a3, a4⟩ := cpyEntry_spec j k src dst hs hd hj hk m se hmem
    obtain ⟨d2, b1, b2, b3, b4⟩ := ih d1 (a2.wf hd) (by rw [a2.sz]; exact hk)
      (fun x hx => hsub x (List.mem_cons_of_mem _ hx)) hnd.2
    rw [a2.rule] at b3 b4
    refine ⟨d2, by unfold cpyEntries; rw [a1, Res.ok_bind, b1], a2.trans b2, ?_, ?_⟩
    · intro m' se' de h' hde hke hkc
      rcases List.mem_cons.mp h' with h' | h'
      · cases h'
        rw [b4 k m de hde fun _ x hx he => by
          have h4 := List.mem_map_of_mem (f := Prod.fst) hx
          rw [he] at h4; exact hnd.1 h4]
        exact a3 de hde hke hkc
      · exact b3 m' se' de h' hde hke hkc
    · intro row m' de' h' hx
      rw [b4 row m' de' h' fun hr x hxm => hx hr x (List.mem_cons_of_mem _ hxm)]
      exact a4 row m' de' h' fun hh => hx hh.1 _ List.mem_cons_self hh.2.symm

theorem copyRow_spec {α : Type} (src dst : Arr α) (j k n ssz dsz : Nat) (hs : src.len = ssz * n)
    (hd : dst.len = dsz * n) (hj : j < ssz) (hk : k < dsz) :
    ∃ a, copyRow src (j * n) dst (k * n) n = .ok a ∧ a.len = dst.len ∧
      (∀ x, x < n → a.val (n * k + x) = src.val (n * j + x)) ∧
      (∀ row x, x < n → row ≠ k → a.val (n * row + x) = dst.val (n * row + x)) := by
  have h1 : j * n + n ≤ ssz * n := by
    have := Nat.mul_le_mul_right n (Nat.succ_le_of_lt hj); rw [Nat.succ_mul] at this; exact this
  have h2 : k * n + n ≤ dsz * n := by
    have := Nat.mul_le_mul_right n (Nat.succ_le_of_lt hk); rw [Nat.succ_mul] at this; exact this
  obtain ⟨a, e1, e2, e3, e4⟩ := Arr.copy_spec n src (j * n) dst (k * n) (by omega) (by omega)
  refine ⟨a, e1, e2, ?_, ?_⟩
  · intro x hx
    rw [Nat.mul_comm n k, Nat.mul_comm n j]; exact e4 x hx
  · intro row x hx hne
    refine e3 _ fun hh => hne ?_
    have : n * row + x = n * k + (n * row + x - k * n) := by rw [Nat.mul_comm n k]; omega
    exact (idx_inj hx (by omega) this).1

theorem cpyRows_spec {F : Type} (j k : Nat) (src dst : Param F) (hs : WF src) (hd : WF dst)
    (hj : j < src.sz) (hk : k < dst.sz) (hr : src.rule = dst.rule) :
    ∃ d1, cpyRows j src k dst = .ok d1 ∧ SameFrame dst d1 ∧
      (∀ m e, (m, some e) ∈ dst.rule.map → e.kind ≠ .copy → item d1 k e = item src j e) ∧
      (∀ row m e, (m, some e) ∈ dst.rule.map → row ≠ k → item d1 row e = item dst row e) := by
  unfold cpyRows
  obtain ⟨f', f1, f2, f3, f4⟩ := copyRow_spec src.f dst.f j k (src.rule.cnt .float) src.sz dst.sz hs.f
    (by rw [hr]; exact hd.f) hj hk
  obtain ⟨i', i1, i2, i3, i4⟩ := copyRow_spec src.i dst.i j k (src.rule.cnt .long) src.sz dst.sz hs.i
    (by rw [hr]; exact hd.i) hj hk
  obtain ⟨s', s1, s2, s3, s4⟩ := copyRow_spec src.s dst.s j k (src.rule.cnt .short) src.sz dst.sz hs.s
    (by rw [hr]; exact hd.s) hj hk
  obtain ⟨t', t1, t2, t3, t4⟩ := copyRow_spec src.t dst.t j k (src.rule.cnt .index) src.sz dst.sz hs.t
    (by rw [hr]; exact hd.t) hj hk
  simp only [f1, i1, s1, t1, Res.ok_bind]
  rw [hr] at f3 f4 i3 i4 s3 s4 t3 t4
  refine ⟨_, rfl, ⟨rfl, rfl, f2, i2, s2, t2, rfl⟩, ?_, ?_⟩
  · intro m e hm hkc
    have hlt := num_lt hd.inv hm
    cases hke : e.kind with
    | float => rw [hke] at hlt; simp only [item, hke, hr]; rw [f3 _ hlt]
    | long => rw [hke] at hlt; simp only [item, hke, hr]; rw [i3 _ hlt]
    | short => rw [hke] at hlt; simp only [item, hke, hr]; rw [s3 _ hlt]
    | index => rw [hke] at hlt; simp only [item, hke, hr]; rw [t3 _ hlt]
    | copy => exact absurd hke hkc
  · intro row m e hm hne
    have hlt := num_lt hd.inv hm
    cases hke : e.kind with
    | float => rw [hke] at hlt; simp only [item, hke]; rw [f4 _ _ hlt hne]
    | long => rw [hke] at hlt; simp only [item, hke]; rw [i4 _ _ hlt hne]
    | short => rw [hke] at hlt; simp only [item, hke]; rw [s4 _ _ hlt hne]
    | index => rw [hke] at hlt; simp only [item, hke]; rw [t4 _ _ hlt hne]
    | copy => simp only [item, hke]

end Verif.Params
