import Verif.Props.Process
import Verif.Props.SortTool
import Verif.Props.FourDOut
import Verif.Props.GenTool

/-!
C91: the files a program writes do not depend on the number of processes, on the order in which their writes arrive, nor on
what was in the output file before.
-/

namespace Verif.Flow
open Verif.Rules Verif.Params Verif.Files Verif.Endian Verif.Layout Verif.FP Verif.Sort Verif.Scalar

variable {F : Type}

/-- All bytes of a file. -/
def content (d : Disk) : List Byte := (List.range d.size).map d.byte

/-! ## The file header -/

theorem send_bytes {d d' : Disk} {b : Arr Byte} (hb : b.len = 3600) (h : send d b [.contig 0 getHOSz] = .ok d') :
    ∀ x, x < 3600 → d'.byte x = b.val x := by
  have hm : ∀ m : Nat × Nat, m ∈ [DataIO.Op.contig 0 getHOSz].flatMap DataIO.Op.wanted ↔ ∃ j, j < 3600 ∧ m = (j, j) := by
    intro m
    simp only [List.flatMap_cons, List.flatMap_nil, List.append_nil, DataIO.Op.wanted, List.mem_map, List.mem_range]
    constructor
    · rintro ⟨j, hj, rfl⟩; exact ⟨j, hj, by rw [Nat.zero_add]⟩
    · rintro ⟨j, hj, rfl⟩; exact ⟨j, hj, by rw [Nat.zero_add]⟩
  obtain ⟨d2, e1, e2, -⟩ := put_spec b ([DataIO.Op.contig 0 getHOSz].flatMap DataIO.Op.wanted) d
    (by intro m h; obtain ⟨j, hj, rfl⟩ := (hm m).mp h; rw [hb]; exact hj)
    (by
      intro m h m' h' he
      obtain ⟨j, hj, rfl⟩ := (hm m).mp h
      obtain ⟨j', hj', rfl⟩ := (hm m').mp h'
      exact he)
  unfold send at h
  rw [if_pos (show [DataIO.Op.contig 0 getHOSz].all (legal true) = true from rfl), e1, Res.ok.injEq] at h
  subst h
  exact fun x hx => e2 (x, x) ((hm _).mpr ⟨x, hx, rfl⟩)

theorem agree_head {α : Type} [DecidableEq α] {a b : α} {l : List α} (h : agree (a :: l) = .ok b) : b = a := by
  simp only [agree] at h
  by_cases hc : (l.all fun x => decide (x = a)) = true
  · rw [if_pos hc, Res.ok.injEq] at h; exact h.symm
  · rw [if_neg hc] at h; cases h

theorem header_len {w : W} {b : Arr Byte} (h : w.header = .ok b) (ht : w.text.length ≤ 3200) : b.len = 3600 := by
  unfold W.header at h
  obtain ⟨a1, e1, h⟩ := of_bind h
  obtain ⟨a2, e2, h⟩ := of_bind h
  obtain ⟨a3, e3, h⟩ := of_bind h
  obtain ⟨n, -, h⟩ := of_bind h
  obtain ⟨a4, e4, h⟩ := of_bind h
  obtain ⟨a5, e5, h⟩ := of_bind h
  obtain ⟨a6, e6, h⟩ := of_bind h
  obtain ⟨a7, e7, h⟩ := of_bind h
  obtain ⟨c1, f1, l1, -⟩ := Arr.writes_spec (w.text.map (BitVec.ofNat 8)) (Arr.fill getHOSz 0#8) 0
    (by rw [List.length_map]; show 0 + w.text.length ≤ 3600; omega)
    (by show (3600 : Nat) ≤ 2 ^ 64; norm_num)
  have l1 : c1.len = 3600 := l1
  rw [f1, Res.ok.injEq] at e1; subst e1
  obtain ⟨c2, f2, l2, -⟩ := writes2 c1 3220 (BitVec.ofNat 16 w.ns) l1 (by norm_num)
  rw [f2, Res.ok.injEq] at e2; subst e2
  obtain ⟨c3, f3, l3, -⟩ := writes2 c2 3224 5#16 l2 (by norm_num)
  rw [f3, Res.ok.injEq] at e3; subst e3
  obtain ⟨c4, f4, l4, -⟩ := writes2 c3 3216 (BitVec.ofInt 16 n) l3 (by norm_num)
  rw [f4, Res.ok.injEq] at e4; subst e4
  obtain ⟨c5, f5, l5, -⟩ := writes2 c4 3254 0x0001#16 l4 (by norm_num)
  rw [f5, Res.ok.injEq] at e5; subst e5
  obtain ⟨c6, f6, l6, -⟩ := writes2 c5 3500 0x0100#16 l5 (by norm_num)
  rw [f6, Res.ok.injEq] at e6; subst e6
  obtain ⟨c7, f7, l7, -⟩ := writes2 c6 3502 0x0001#16 l6 (by norm_num)
  rw [f7, Res.ok.injEq] at e7; subst e7
  obtain ⟨c8, f8, l8, -⟩ := writes2 c7 3504 0x0000#16 l7 (by norm_num)
  rw [f8, Res.ok.injEq] at h; subst h
  exact l8

theorem header_congr {w v : W} (h1 : w.text = v.text) (h2 : w.inc = v.inc) (h3 : w.ns = v.ns) : w.header = v.header := by
  unfold W.header
  rw [h1, h2, h3]

/-- What closing leaves in the first 3600 bytes depends on text, interval and number of samples of the first process only. -/
theorem close_bytes {w : W} {tl : List W} {d d' : Disk} (he : w.err = false) (ho : w.writeHO = true)
    (ht : w.text.length ≤ 3200) (h : close (w :: tl) d = .ok d') :
    ∃ b, w.header = .ok b ∧ ∀ x, x < 3600 → d'.byte x = b.val x := by
  unfold close at h
  obtain ⟨e, e1, h⟩ := of_bind h
  rw [agree_head e1, he, if_neg (by simp)] at h
  obtain ⟨ws, e2, h⟩ := of_bind h
  obtain ⟨d1, -, h⟩ := of_bind h
  have hws : ∃ v vs, ws = v :: vs ∧ v.text = w.text ∧ v.inc = w.inc ∧ v.ns = w.ns ∧ v.writeHO = w.writeHO := by
    unfold calcNt at e2
    obtain ⟨st, -, e2⟩ := of_bind e2
    split at e2
    · rw [Res.ok.injEq] at e2
      exact ⟨_, _, e2.symm, rfl, rfl, rfl, rfl⟩
    · rw [Res.ok.injEq] at e2
      exact ⟨_, _, e2.symm, rfl, rfl, rfl, rfl⟩
  obtain ⟨v, vs, rfl, v1, v2, v3, v4⟩ := hws
  unfold closeHeader at h
  obtain ⟨o, e3, h⟩ := of_bind h
  rw [agree_head e3, v4, ho, if_pos rfl] at h
  dsimp only at h
  obtain ⟨b, e4, h⟩ := of_bind h
  refine ⟨b, by rw [← header_congr v1 v2 v3]; exact e4, send_bytes (header_len e4 (by rw [v1]; exact ht)) h⟩

theorem foldl_same (calls : List (List Nat)) : ∀ w : W, (calls.foldl W.writeList w).text = w.text ∧
    (calls.foldl W.writeList w).inc = w.inc ∧ (calls.foldl W.writeList w).ns = w.ns ∧
    (calls.foldl W.writeList w).writeHO = w.writeHO := by
  induction calls with
  | nil => exact fun w => ⟨rfl, rfl, rfl, rfl⟩
  | cons a l ih => exact fun w => ih _

theorem start_text (ns : Nat) (inc : ℚ) (msg : List Nat) :
    (((W.new.writeNs ns).writeInc inc).writeText msg).text.length ≤ 3200 ∧
    (((W.new.writeNs ns).writeInc inc).writeText msg).writeHO = true := by
  have h : ((W.new.writeNs ns).writeInc inc).text = [] ∧ ((W.new.writeNs ns).writeInc inc).writeHO = true := by
    unfold W.writeInc W.writeNs W.new
    split_ifs <;> exact ⟨rfl, rfl⟩
  generalize (W.new.writeNs ns).writeInc inc = w at *
  unfold W.writeText
  split
  · exact ⟨Nat.le_of_eq (shown_length msg), rfl⟩
  · exact ⟨by rw [h.1]; exact Nat.zero_le _, h.2⟩

/-- The first 3600 bytes of the output of a group. -/
theorem output_header {queue : List BlockOp} {ops : FloatOps F} {cv : Conv F (BitVec 64)} {zero : F} {rule : Rule}
    {idx : List Nat → List Nat} {sched : List Chunk → List Chunk} {P ns : Nat} {inc : ℚ} {msg : List Nat} {fs : List Input}
    {out out' : Disk} (hP : 0 < P) (h1 : ns ≤ 32767) (hinc : (2 : ℚ) ^ (-1022 : ℤ) ≤ |inc|)
    (h : outputGroup queue ops cv zero rule idx sched P ns inc msg fs out = .ok out') :
    ∃ b, (writerOf ns inc msg []).header = .ok b ∧ ∀ x, x < 3600 → out'.byte x = b.val x := by
  unfold outputGroup at h
  obtain ⟨max, -, h⟩ := of_bind h
  split at h
  · cases h
  · obtain ⟨o1, -, h⟩ := of_bind h
    obtain ⟨P', rfl⟩ : ∃ P', P = P' + 1 := ⟨P - 1, by omega⟩
    rw [List.range_succ_eq_map, List.map_cons] at h
    obtain ⟨a1, a2⟩ := writer_new h1 hinc msg
    obtain ⟨s1, s2⟩ := start_text ns inc msg
    have hf := foldl_same (writesOf idx max (P' + 1) 0 0 fs) (((W.new.writeNs ns).writeInc inc).writeText msg)
    obtain ⟨b, b1, b2⟩ := close_bytes (foldl_err _ _ a1 a2) (hf.2.2.2.trans s2) (by
      exact (Nat.le_of_eq (congrArg List.length hf.1)).trans s1) h
    exact ⟨b, by rw [← b1]; exact (header_congr hf.1 hf.2.1 hf.2.2.1).symm, b2⟩

/-! ## Records -/

theorem same_content {ns N : Nat} {a b : Disk} (ha : a.size = 3600 + N * (240 + 4 * ns)) (hb : b.size = 3600 + N * (240 + 4 * ns))
    (hh : ∀ x, x < 3600 → a.byte x = b.byte x)
    (hr : ∀ p x, p < N → x < 240 + 4 * ns → recByte a ns p x = recByte b ns p x) : content a = content b := by
  unfold content
  rw [ha, hb]
  refine List.map_congr_left fun x hx => ?_
  have hx := List.mem_range.1 hx
  by_cases h : x < 3600
  · exact hh x h
  · have hw : 0 < 240 + 4 * ns := by omega
    have hq : (x - 3600) / (240 + 4 * ns) < N := (Nat.div_lt_iff_lt_mul hw).2 (by omega)
    have := hr _ _ hq (Nat.mod_lt (x - 3600) hw)
    unfold recByte at this
    have he : 3600 + (x - 3600) / (240 + 4 * ns) * (240 + 4 * ns) + (x - 3600) % (240 + 4 * ns) = x := by
      have := Nat.div_add_mod (x - 3600) (240 + 4 * ns)
      rw [Nat.mul_comm] at this
      omega
    rw [he] at this
    exact this

theorem samples_bytes {ns : Nat} {a b : Disk} {k k' : Nat} (h : ∀ s, s < ns → dsamp a ns k s = dsamp b ns k' s) {x : Nat}
    (h1 : 240 ≤ x) (h2 : x < 240 + 4 * ns) : recByte a ns k x = recByte b ns k' x := by
  have hs := h ((x - 240) / 4) (by omega)
  unfold dsamp dword at hs
  obtain ⟨q0, q1, q2, q3⟩ := word_inj hs
  unfold recByte
  have hm : (x - 240) % 4 = 0 ∨ (x - 240) % 4 = 1 ∨ (x - 240) % 4 = 2 ∨ (x - 240) % 4 = 3 := by omega
  rcases hm with hm | hm | hm | hm
  · rw [show 3600 + k * (240 + 4 * ns) + x = 3600 + k * (240 + 4 * ns) + 240 + 4 * ((x - 240) / 4) by omega,
      show 3600 + k' * (240 + 4 * ns) + x = 3600 + k' * (240 + 4 * ns) + 240 + 4 * ((x - 240) / 4) by omega, q0]
  · rw [show 3600 + k * (240 + 4 * ns) + x = 3600 + k * (240 + 4 * ns) + 240 + 4 * ((x - 240) / 4) + 1 by omega,
      show 3600 + k' * (240 + 4 * ns) + x = 3600 + k' * (240 + 4 * ns) + 240 + 4 * ((x - 240) / 4) + 1 by omega, q1]
  · rw [show 3600 + k * (240 + 4 * ns) + x = 3600 + k * (240 + 4 * ns) + 240 + 4 * ((x - 240) / 4) + 2 by omega,
      show 3600 + k' * (240 + 4 * ns) + x = 3600 + k' * (240 + 4 * ns) + 240 + 4 * ((x - 240) / 4) + 2 by omega, q2]
  · rw [show 3600 + k * (240 + 4 * ns) + x = 3600 + k * (240 + 4 * ns) + 240 + 4 * ((x - 240) / 4) + 3 by omega,
      show 3600 + k' * (240 + 4 * ns) + x = 3600 + k' * (240 + 4 * ns) + 240 + 4 * ((x - 240) / 4) + 3 by omega, q3]

theorem trace_samples {ns : Nat} {a b : Disk} {k k' : Nat} (h : trace a ns k = trace b ns k') :
    ∀ s, s < ns → dsamp a ns k s = dsamp b ns k' s := by
  intro s hs
  have : (trace a ns k)[s]? = (trace b ns k')[s]? := by rw [h]
  rw [trace_get hs, trace_get hs, Option.some.injEq, Flt.mk.injEq] at this
  exact this

theorem half_inj {a b a' b' : Byte} (h : fromBE16 a b = fromBE16 a' b') : a = a' ∧ b = b' := by
  have := congrArg (toBESigned 2) h
  rw [C03_roundtrip16_bytes, C03_roundtrip16_bytes] at this
  simpa using this

theorem scalFold_congr {fs : F → BitVec 16} {p q : Param F} {row row' : Nat} {es : List Entry}
    (h : ∀ e ∈ es, fval p row e = fval q row' e) (tr : Nat) :
    ∀ a, scalFold fs p row es tr a = scalFold fs q row' es tr a := by
  intro a
  unfold scalFold
  exact List.foldl_ext _ _ a fun b e he => by rw [h e he]

theorem mem_floatsOf {l : Map} {e : Entry} (h : e ∈ floatsOf l) : (∃ m, (m, some e) ∈ l) ∧ e.kind = .float := by
  unfold floatsOf at h
  obtain ⟨⟨m, o⟩, hm, ho⟩ := List.mem_filterMap.1 h
  cases o with
  | none => cases ho
  | some e' =>
    dsimp only at ho
    split at ho
    · rename_i hk
      rw [Option.some.injEq] at ho
      subst ho
      exact ⟨⟨m, hm⟩, hk⟩
    · cases ho

/-- Two headers with the same values are the same. -/
theorem header_same {fs : F → BitVec 16} {en : F → BitVec 16 → BitVec 32} {rule : Rule} (hl : HdrLayout rule) {p q : Param F}
    {row row' : Nat} {a b : Arr Byte} (hr : p.rule = rule) (hr' : q.rule = rule) (hh : Header fs en p row a)
    (hh' : Header fs en q row' b)
    (hfv : ∀ m e, (m, some e) ∈ rule.map → e.kind = .float → fval p row e = fval q row' e)
    (hlv : ∀ m e, (m, some e) ∈ rule.map → e.kind = .long →
      p.i.val (row * rule.cnt .long + e.num) = q.i.val (row' * rule.cnt .long + e.num))
    (hsv : ∀ m e, (m, some e) ∈ rule.map → e.kind = .short →
      p.s.val (row * rule.cnt .short + e.num) = q.s.val (row' * rule.cnt .short + e.num))
    (hcv : rule.cnt .copy ≠ 0 → ∀ x, x < 240 → p.c.val (row * 240 + x) = q.c.val (row' * 240 + x)) :
    ∀ x, x < 240 → a.val x = b.val x := by
  have hsc : ∀ tr, scalarOf fs p row tr = scalarOf fs q row' tr := by
    intro tr
    unfold scalarOf
    rw [hr, hr']
    refine scalFold_congr (fun e he => ?_) tr _
    obtain ⟨⟨m, hm⟩, hk⟩ := mem_floatsOf he
    exact hfv m e hm hk
  intro x hx
  by_cases hn : Named rule 0 x
  · obtain ⟨m, e, hm, hcase⟩ := hn
    obtain ⟨a1, a2, a3⟩ := hh.items m e (by rw [hr]; exact hm)
    obtain ⟨b1, b2, b3⟩ := hh'.items m e (by rw [hr']; exact hm)
    have w16 : ∀ c, 1 ≤ c → val16 a (0 + (c - 1)) = val16 b (0 + (c - 1)) → c ≤ x + 1 → x + 1 < c + 2 → a.val x = b.val x := by
      intro c h1 hv h2 h3
      unfold val16 at hv
      obtain ⟨v0, v1⟩ := half_inj hv
      have : x = 0 + (c - 1) ∨ x = 0 + (c - 1) + 1 := by omega
      rcases this with rfl | rfl
      · exact v0
      · exact v1
    have w32 : ∀ c, 1 ≤ c → val32 a (0 + (c - 1)) = val32 b (0 + (c - 1)) → c ≤ x + 1 → x + 1 < c + 4 → a.val x = b.val x := by
      intro c h1 hv h2 h3
      unfold val32 at hv
      obtain ⟨v0, v1, v2, v3⟩ := word_inj hv
      have : x = 0 + (c - 1) ∨ x = 0 + (c - 1) + 1 ∨ x = 0 + (c - 1) + 2 ∨ x = 0 + (c - 1) + 3 := by omega
      rcases this with rfl | rfl | rfl | rfl
      · exact v0
      · exact v1
      · exact v2
      · exact v3
    rcases hcase with ⟨hv, h1, h2⟩ | ⟨hk, h1, h2⟩
    · have hloc := (hl.fits m e hm hv).1
      rcases hv with hk | hk | hk
      · rw [hk] at h2
        refine w32 e.loc hloc ?_ (by omega) (by simp only [width] at h2; omega)
        rw [a2 hk, b2 hk, hr, hr', hlv m e hm hk]
      · rw [hk] at h2
        refine w16 e.loc hloc ?_ (by omega) (by simp only [width] at h2; omega)
        rw [a1 hk, b1 hk, hr, hr', hsv m e hm hk]
      · rw [hk] at h2
        refine w32 e.loc hloc ?_ (by omega) (by simp only [width] at h2; omega)
        rw [(a3 hk).2, (b3 hk).2, hfv m e hm hk, hsc]
    · have hloc := (hl.sfits m e hm hk).1
      refine w16 e.scalLoc hloc ?_ (by omega) (by omega)
      rw [(a3 hk).1, (b3 hk).1, hsc]
  · rw [hh.rest x hx (by rw [hr]; exact hn), hh'.rest x hx (by rw [hr']; exact hn), hr, hr']
    by_cases h0 : rule.cnt .copy ≠ 0
    · rw [if_pos h0, if_pos h0, hcv h0 x hx]
    · rw [if_neg h0, if_neg h0]

/-- The header written again is determined by the header read. -/
theorem header_unique {ops : FloatOps F} {rule : Rule} (hl : HdrLayout rule) {h a b : Arr Byte}
    (ha : ∃ (p : Param F) (row : Nat), WF p ∧ p.rule = rule ∧ row < p.sz ∧ Decoded ops h row 0 p rule.map ∧
      (rule.cnt .copy ≠ 0 → ∀ x, x < 240 → p.c.val (row * 240 + x) = h.val x) ∧ Header (fsOf ops) (enOf ops) p row a)
    (hb : ∃ (p : Param F) (row : Nat), WF p ∧ p.rule = rule ∧ row < p.sz ∧ Decoded ops h row 0 p rule.map ∧
      (rule.cnt .copy ≠ 0 → ∀ x, x < 240 → p.c.val (row * 240 + x) = h.val x) ∧ Header (fsOf ops) (enOf ops) p row b) :
    ∀ x, x < 240 → a.val x = b.val x := by
  obtain ⟨p, row, -, hr, -, hd, hc, hh⟩ := ha
  obtain ⟨q, row', -, hr', -, hd', hc', hh'⟩ := hb
  refine header_same hl hr hr' hh hh' (fun m e hm hk => ?_) (fun m e hm hk => ?_) (fun m e hm hk => ?_) fun h0 x hx => ?_
  · unfold fval
    rw [((hd m e hm).2.2 hk), ((hd' m e hm).2.2 hk)]
  · have h1 := (hd m e hm).2.1 hk
    have h2 := (hd' m e hm).2.1 hk
    rw [hr] at h1
    rw [hr'] at h2
    exact h1.trans h2.symm
  · have h1 := (hd m e hm).1 hk
    have h2 := (hd' m e hm).1 hk
    rw [hr] at h1
    rw [hr'] at h2
    exact h1.trans h2.symm
  · rw [hc h0 x hx, hc' h0 x hx]

theorem Again.unique {ops : FloatOps F} {rule : Rule} (hl : HdrLayout rule) {ns : Nat} {d a b : Disk} {k p p' : Nat}
    (ha : Again ops rule ns d k a p) (hb : Again ops rule ns d k b p') {x : Nat} (hx : x < 240 + 4 * ns) :
    recByte a ns p x = recByte b ns p' x := by
  by_cases h : x < 240
  · exact header_unique hl ha.header hb.header x h
  · exact samples_bytes (fun s hs => (ha.samples s hs).trans (hb.samples s hs).symm) (by omega) hx

/-! ## Concatenation and operations on single traces -/

theorem forall2_unique {α β : Type} {R : α → β → Prop} (hR : ∀ x y z, R x y → R x z → y = z) {l : List α} {m n : List β}
    (h1 : List.Forall₂ R l m) (h2 : List.Forall₂ R l n) : m = n := by
  induction h1 generalizing n with
  | nil => cases h2; rfl
  | cons a _ ih =>
    cases h2 with
    | cons b h => rw [hR _ _ _ a b, ih h]

theorem list_get {α : Type} {f g : Nat → α} {N : Nat} (h : (List.range N).map f = (List.range N).map g) {p : Nat} (hp : p < N) :
    f p = g p := by
  have : ((List.range N).map f)[p]? = ((List.range N).map g)[p]? := by rw [h]
  rw [List.getElem?_map, List.getElem?_map, List.getElem?_range hp, Option.map_some, Option.map_some, Option.some.injEq] at this
  exact this

section
variable [Mul Flt] {K : Type} [Field K] (toK : Flt → K) (ofK : K → Flt)

/-- **C91** (operations on single traces, and concatenation, which is the empty list of operations; partial). Two runs on the same
files, each on any number of processes, with any order of the writes and anything in the output file before, that both end leave
the same bytes in the file; and both end, unless there are numbers in the IBM format without a value. Missing: intervals that are
not positive (`C78_zero_refuted`). -/
theorem C91_operations_partial (ops : FloatOps F) (cv : Conv F (BitVec 64)) (hcv : ∀ v, cv.toT v = v) (zero : F)
    (idx idx' : List Nat → List Nat) (hidx : IsSortIndex idx) (hidx' : IsSortIndex idx')
    (sched sched' : List Chunk → List Chunk) (hs : ∀ l, (sched l).Perm l) (hs' : ∀ l, (sched' l).Perm l)
    (P P' : Nat) (hP : 0 < P) (hP' : 0 < P') (code : ℚ → Int) (hcode : Function.Injective code) (msg : List Nat)
    (hmsg : ∀ x ∈ msg, x < 256)
    (ds : List Disk) (info : Disk → Info) (hopen : ∀ d ∈ ds, openRead d = .ok (info d)) (hsize : ∀ d ∈ ds, d.size < 2 ^ 63)
    (ns : Nat) (h0 : 0 < ns) (h1 : ns ≤ 32767) (inc : ℚ) (hinc : 0 < inc) (grp : List Disk)
    (hgrp : grp = ds.filter fun d => (info d).ns = ns ∧ (info d).inc = inc) (hne : grp ≠ [])
    (N : Nat) (hN : N = (grp.map fun d => (info d).nt).sum)
    (hsz : 3600 + N * (240 + 4 * ns) < 2 ^ 63) (l : List (TraceOp K))
    (hl : ∀ d ∈ grp, ∀ k, k < (info d).nt → ∃ y, GivesAll toK ofK l (seen (decide ((info d).format = 1#16)) d ns k) y)
    (out out' : Disk) :
    (∀ a b, processSet (l.map (TraceOp.op toK ofK)) ops cv zero idx sched P code msg ds (ns, code inc) out = .ok a →
      processSet (l.map (TraceOp.op toK ofK)) ops cv zero idx' sched' P' code msg ds (ns, code inc) out' = .ok b →
      content a = content b) ∧
    ((∀ d ∈ grp, (info d).format = 1#16 → ∀ k, k < (info d).nt → ∀ s, s < ns → Quiet (native d ns k s)) → ∃ a b,
      processSet (l.map (TraceOp.op toK ofK)) ops cv zero idx sched P code msg ds (ns, code inc) out = .ok a ∧
      processSet (l.map (TraceOp.op toK ofK)) ops cv zero idx' sched' P' code msg ds (ns, code inc) out' = .ok b) := by
  have hA := process_either ops cv hcv zero idx hidx sched hs P hP code hcode msg hmsg ds info hopen hsize ns h0 h1
    inc hinc grp hgrp hne N hN hsz (queueOk toK ofK l ns h0 h1) hl out
  have hB := process_either ops cv hcv zero idx' hidx' sched' hs' P' hP' code hcode msg hmsg ds info hopen hsize ns
    h0 h1 inc hinc grp hgrp hne N hN hsz (queueOk toK ofK l ns h0 h1) hl out'
  refine ⟨fun a b ha hb => ?_, fun hq => ?_⟩
  swap
  · obtain ⟨a, ha⟩ := hA.2 hq
    obtain ⟨b, hb⟩ := hB.2 hq
    exact ⟨a, b, ha, hb⟩
  obtain ⟨-, a2, a3, a4⟩ := hA.1 a ha
  obtain ⟨-, b2, b3, b4⟩ := hB.1 b hb
  have hh : headers a ns N = headers b ns N := a3.trans b3.symm
  have ht : traces a ns N = traces b ns N := forall2_unique (R := GivesAll toK ofK l) (fun _ _ _ h h' => givesAll_unique toK ofK l h h') a4 b4
  obtain ⟨fs, -, -, ca, -, -, iv, hiv⟩ := concat_prep ops cv zero idx sched P hP code hcode msg ds info hopen hsize ns
    h0 h1 inc grp hgrp hne N hN hsz
  obtain ⟨fs', -, -, cb, -⟩ := concat_prep ops cv zero idx' sched' P' hP' code hcode msg ds info hopen hsize ns
    h0 h1 inc grp hgrp hne N hN hsz
  obtain ⟨i1, -⟩ := inc_again (iv := iv) (by rw [← hiv]; exact hinc)
  rw [← hiv] at i1
  rw [ca] at ha
  rw [cb] at hb
  obtain ⟨ba, e1, e2⟩ := output_header hP h1 i1 ha
  obtain ⟨bb, e3, e4⟩ := output_header hP' h1 i1 hb
  rw [e1, Res.ok.injEq] at e3
  subst e3
  refine same_content a2 b2 (fun x hx => (e2 x hx).trans (e4 x hx).symm) fun p x hp hx => ?_
  by_cases hlt : x < 240
  · have := list_get hh hp
    unfold hdrBytes at this
    exact list_get this hlt
  · exact samples_bytes (trace_samples (list_get ht hp)) (by omega) hx

end

/-! ## Sorting -/

theorem queueSet_output {q : List Queued} {srtp : List (Nat × Nat) → List (Nat × Nat)} {dflt : Rec} {fuel : Nat}
    {idx : List Nat → List Nat} {sched : List Chunk → List Chunk} {P : Nat} {code : ℚ → Int} (hcode : Function.Injective code)
    {msg : List Nat} {ds : List Disk} {ns : Nat} {inc : ℚ} {out o' : Disk}
    (h : queueSet q srtp dflt fuel idx sched P code msg ds (ns, code inc) out = .ok o') :
    (∀ out2, queueSet q srtp dflt fuel idx sched P code msg ds (ns, code inc) out2 = .ok out2) ∨ ∃ rule fs,
      outputGroup (leadingOps (afterSorts q)) dbl asInt 0 rule idx sched P ns inc msg fs out = .ok o' := by
  unfold queueSet at h
  obtain ⟨infos, q1, h⟩ := of_bind h
  obtain ⟨sts, q2, h⟩ := of_bind h
  obtain ⟨rule, q3, h⟩ := of_bind h
  obtain ⟨srule, q4, h⟩ := of_bind h
  obtain ⟨rule', q5, h⟩ := of_bind h
  cases hm : members code (ns, code inc) (ds.zip infos) with
  | nil =>
    refine Or.inl fun out2 => ?_
    unfold queueSet
    rw [q1, Res.ok_bind, q2, Res.ok_bind, q3, Res.ok_bind, q4, Res.ok_bind, q5, Res.ok_bind, hm]
  | cons x l =>
    rw [hm] at h
    dsimp only at h
    obtain ⟨parts, -, h⟩ := of_bind h
    have hx : x ∈ members code (ns, code inc) (ds.zip infos) := by rw [hm]; simp
    unfold members at hx
    have hk := (List.mem_filter.1 hx).2
    have hk : (x.2.ns, code x.2.inc) = (ns, code inc) := of_decide_eq_true hk
    rw [Prod.mk.injEq] at hk
    obtain ⟨k1, k2⟩ := hk
    have k2 := hcode k2
    rw [k1, k2] at h
    exact Or.inr ⟨_, _, h⟩

theorem sortSet_output {srt : List Rec → List Rec} {srtp : List (Nat × Nat) → List (Nat × Nat)} {dflt : Rec} {fuel : Nat}
    {idx : List Nat → List Nat} {sched : List Chunk → List Chunk} {P : Nat} {code : ℚ → Int} (hcode : Function.Injective code)
    {msg : List Nat} {ds : List Disk} {ns : Nat} {inc : ℚ} {out o' : Disk}
    (h : sortSet srt srtp dflt fuel idx sched P code msg ds (ns, code inc) out = .ok o') :
    (∀ out2, sortSet srt srtp dflt fuel idx sched P code msg ds (ns, code inc) out2 = .ok out2) ∨ ∃ rule fs,
      outputGroup [] dbl asInt 0 rule idx sched P ns inc msg fs out = .ok o' :=
  queueSet_output hcode h

theorem source_unique {o : OffFn} {ty : SortType} {grp : List Disk} {ns : Nat} {nts : List Nat} (hn : nts.length = grp.length)
    {s s' : List (Nat × Nat)} (h : s.Perm (allTraces nts)) (h' : s'.Perm (allTraces nts))
    (hp : (s.map (traceOf grp ns)).Pairwise (fun a b => getComp o ty b a = false))
    (hp' : (s'.map (traceOf grp ns)).Pairwise (fun a b => getComp o ty b a = false)) : s = s' := by
  rw [List.pairwise_map] at hp hp'
  refine List.Perm.eq_of_pairwise (fun a b ha hb h1 h2 => ?_) hp hp' (h.trans h'.symm)
  have hc : ∀ x : Nat × Nat, x ∈ allTraces nts → x.1 < grp.length := by
    rintro ⟨c, k⟩ hx
    obtain ⟨nt, e, -⟩ := allTraces_mem hx
    obtain ⟨hlt, -⟩ := List.getElem?_eq_some_iff.1 e
    show c < _
    omega
  have ha := hc a (h.mem_iff.1 ha)
  have hb := hc b (h'.mem_iff.1 hb)
  by_contra hne
  have hl : (traceOf grp ns a).ltn ≠ (traceOf grp ns b).ltn := by
    intro he
    apply hne
    obtain ⟨c, k⟩ := a
    obtain ⟨c', k'⟩ := b
    have e1 := tagOf_traceOf (ns := ns) (k := k) ha
    have e2 := tagOf_traceOf (ns := ns) (k := k') hb
    unfold tagOf at e1 e2
    rw [he] at e1
    exact e1.symm.trans e2
  rcases (C26_strict_total o ty).2.2 _ _ hl with ⟨g1, g2⟩ | ⟨g1, g2⟩
  · rw [h2] at g1; cases g1
  · rw [h1] at g2; cases g2

/-- **C91** (the sort tool). Two runs of the sort tool on the same files leave the same bytes in the file, each on any number of processes,
whatever `std::sort` does with equal elements, in any order of the writes, and whatever was in the output file before. What is
missing is what `Job` asks for. -/
theorem C91_sort_partial {o : OffFn} {ty : SortType} {srt srt' : List Rec → List Rec}
    {srtp srtp' : List (Nat × Nat) → List (Nat × Nat)} {idx idx' : List Nat → List Nat} {sched sched' : List Chunk → List Chunk}
    {P P' : Nat} {code : ℚ → Int} {msg : List Nat} {ds : List Disk} {info : Disk → Info} {ns : Nat} {inc : ℚ}
    {grp : List Disk} {N : Nat} (j : Job o ty srt srtp idx sched P code msg ds info ns inc grp N)
    (j' : Job o ty srt' srtp' idx' sched' P' code msg ds info ns inc grp N) (dflt dflt' : Rec) :
    ∃ n0, ∀ fuel fuel' out out', n0 ≤ fuel → n0 ≤ fuel' → ∃ a b,
      sortSet srt srtp dflt fuel idx sched P code msg ds (ns, code inc) out = .ok a ∧
      sortSet srt' srtp' dflt' fuel' idx' sched' P' code msg ds (ns, code inc) out' = .ok b ∧ content a = content b := by
  obtain ⟨n, src, h⟩ := sort_core o ty srt j.hsrt srtp j.hsrtp dflt idx j.hidx sched j.hsched P j.hP code j.hcode msg j.hmsg ds
    info j.hopen j.hsize ns j.h0 j.h1 inc j.hinc grp j.hgrp j.hne j.hfmt N j.hN j.hsz j.hnum j.hmany
  obtain ⟨n', src', h'⟩ := sort_core o ty srt' j'.hsrt srtp' j'.hsrtp dflt' idx' j'.hidx sched' j'.hsched P' j'.hP code j'.hcode msg
    j'.hmsg ds info j'.hopen j'.hsize ns j'.h0 j'.h1 inc j'.hinc grp j'.hgrp j'.hne j'.hfmt N j'.hN j'.hsz j'.hnum j'.hmany
  obtain ⟨iv, hiv⟩ : ∃ iv : BitVec 16, inc = rnd (micro * iv.toInt) := by
    obtain ⟨_, _, _, _, _, _, _, _, _, _, _, _, hiv⟩ := group_prep P j.hP code j.hcode ds info j.hopen j.hsize ns j.h0 j.h1 inc grp
      j.hgrp j.hne N j.hN j.hsz
    exact hiv
  obtain ⟨i1, -⟩ := inc_again (iv := iv) (by rw [← hiv]; exact j.hinc)
  rw [← hiv] at i1
  refine ⟨max n n', fun fuel fuel' out out' hf hf' => ?_⟩
  obtain ⟨a, a1, a2, -, a4, a5, a6⟩ := h out
  obtain ⟨b, b1, b2, -, b4, b5, b6⟩ := h' out'
  have hsrc : src = src' := source_unique (by rw [List.length_map]) a4 b4 a5 b5
  subst hsrc
  have ea := a1 fuel (le_trans (le_max_left _ _) hf)
  have eb := b1 fuel' (le_trans (le_max_right _ _) hf')
  refine ⟨a, b, ea, eb, ?_⟩
  have hpos : taddr ns N ≠ 0 := by unfold taddr; omega
  have hA : ∃ c, (writerOf ns inc msg []).header = .ok c ∧ ∀ x, x < 3600 → a.byte x = c.val x := by
    rcases sortSet_output j.hcode ea with q | ⟨rule, fs, q⟩
    · exfalso
      obtain ⟨z, z1, z2, -⟩ := h ⟨0, fun _ => 0#8⟩
      have := z1 fuel (le_trans (le_max_left _ _) hf)
      rw [q, Res.ok.injEq] at this
      rw [← this] at z2
      exact hpos z2.symm
    · exact output_header j.hP j.h1 i1 q
  have hB : ∃ c, (writerOf ns inc msg []).header = .ok c ∧ ∀ x, x < 3600 → b.byte x = c.val x := by
    rcases sortSet_output j.hcode eb with q | ⟨rule, fs, q⟩
    · exfalso
      obtain ⟨z, z1, z2, -⟩ := h' ⟨0, fun _ => 0#8⟩
      have := z1 fuel' (le_trans (le_max_right _ _) hf')
      rw [q, Res.ok.injEq] at this
      rw [← this] at z2
      exact hpos z2.symm
    · exact output_header j'.hP j.h1 i1 q
  obtain ⟨c, c1, c2⟩ := hA
  obtain ⟨c', c1', c2'⟩ := hB
  rw [c1, Res.ok.injEq] at c1'
  subst c1'
  refine same_content a2 b2 (fun x hx => (c2 x hx).trans (c2' x hx).symm) fun p x hp hx => ?_
  have hlen : src.length = N := by rw [a4.length_eq, allTraces_length, j.hN]
  obtain ⟨⟨c, k⟩, hck⟩ : ∃ y, src[p]? = some y := ⟨_, List.getElem?_eq_getElem (by omega)⟩
  obtain ⟨d, g1, g2⟩ := a6 p c k hck
  obtain ⟨d', g1', g2'⟩ := b6 p c k hck
  rw [g1, Option.some.injEq] at g1'
  subst g1'
  exact g2.unique wr_ok.layout g2' hx

/-! ## Examples -/

section

local instance exMul91 : Mul Flt := ⟨fun a b => ⟨a.bits * b.bits⟩⟩

/-- A taper on a file in the IBM format, on two processes and on one. -/
example (toK : Flt → ℚ) (ofK : ℚ → Flt) : ∃ a b : Disk,
    processSet (([.taper (fun i _ => ⟨BitVec.ofNat 32 i⟩) 2 1] : List (TraceOp ℚ)).map (TraceOp.op toK ofK)) exOps exConvT 0
      insIndex List.reverse 2 (fun q : ℚ => (Encodable.encode q : Int)) [] [ibmFile 2 8#8]
      (4, (Encodable.encode (exInc false) : Int)) ⟨0, fun _ => 0#8⟩ = .ok a ∧
    processSet (([.taper (fun i _ => ⟨BitVec.ofNat 32 i⟩) 2 1] : List (TraceOp ℚ)).map (TraceOp.op toK ofK)) exOps exConvT 0
      insIndex id 1 (fun q : ℚ => (Encodable.encode q : Int)) [] [ibmFile 2 8#8]
      (4, (Encodable.encode (exInc false) : Int)) ⟨9, fun _ => 1#8⟩ = .ok b ∧ content a = content b := by
  obtain ⟨t1, o1⟩ := ibmFile_open (n := 2) 8#8 (by decide)
  obtain ⟨g1, g2⟩ := C91_operations_partial toK ofK exOps exConvT (fun _ => rfl) 0 insIndex insIndex insIndex_sorts insIndex_sorts
    List.reverse id (fun l => List.reverse_perm l) (fun l => List.Perm.refl l) 2 1 (by omega) (by omega) _ exCode [] (by simp)
    [ibmFile 2 8#8]
    (fun _ => ⟨4, 2, exInc false, 1#16, t1⟩) (by simpa using o1)
    (by simp only [List.mem_singleton]; rintro d rfl; show plainSz 2 4 < _; decide)
    4 (by omega) (by omega) (exInc false) exInc_pos [ibmFile 2 8#8] (by simp) (by simp) 2 (by simp) (by omega)
    [.taper (fun i _ => ⟨BitVec.ofNat 32 i⟩) 2 1] (by
      intro d _ k _
      show ∃ y, GivesAll toK ofK _ (List.replicate 4 ⟨0x3F000000#32⟩) y
      refine ⟨[⟨0x3F000000#32⟩, ⟨0x7E000000#32⟩, ⟨0x3F000000#32⟩, ⟨0x3F000000#32⟩],
        [⟨0x3F000000#32⟩, ⟨0x7E000000#32⟩, ⟨0x3F000000#32⟩, ⟨0x3F000000#32⟩],
        ⟨0, fun i h => by omega, ⟨_, rfl, by decide⟩, by decide, by decide, rfl, ?_⟩, rfl⟩
      intro i x hx
      match i, hx with
      | 0, hx => cases hx; decide
      | 1, hx => cases hx; decide
      | 2, hx => cases hx; decide
      | 3, hx => cases hx; decide
      | _ + 4, hx => cases hx) ⟨0, fun _ => 0#8⟩ ⟨9, fun _ => 1#8⟩
  obtain ⟨a, b, h1, h2⟩ := g2 (by
    simp only [List.mem_singleton]
    rintro d rfl hf k _ s _
    rw [ibmFile_native]
    exact ⟨0x3F000000#32, by decide +kernel⟩)
  exact ⟨a, b, h1, h2, g1 a b h1 h2⟩

end

/-- The sort of eight traces on two processes and on one. -/
example : ∃ n0, ∀ fuel fuel' out out', n0 ≤ fuel → n0 ≤ fuel' → ∃ a b,
    sortSet (keySort fun a b => getComp Sort.off 35 a.tr b.tr) (keySort pairLt) ⟨⟨0, 0, 0, 0, 0, 0, 0, 0⟩, 0, []⟩ fuel insIndex
      List.reverse 2 (fun q : ℚ => (Encodable.encode q : Int)) [] [recFile 8 exWhole] (1, (Encodable.encode (exInc false) : Int)) out = .ok a ∧
    sortSet (keySort fun a b => getComp Sort.off 35 a.tr b.tr) (keySort pairLt) ⟨⟨0, 0, 0, 0, 0, 0, 0, 0⟩, 0, []⟩ fuel' insIndex
      id 1 (fun q : ℚ => (Encodable.encode q : Int)) [] [recFile 8 exWhole] (1, (Encodable.encode (exInc false) : Int)) out' = .ok b ∧
    content a = content b := by
  obtain ⟨t, j⟩ := whole_job
  obtain ⟨t', j'⟩ := one_job Sort.off 35 (comp_sorts Sort.off 35) pair_sorts insIndex_sorts (sched := id) (fun l => List.Perm.refl l)
    (P := 1) (by omega) exCode (msg := []) (by simp) (n := 8) exWhole (by decide) (Or.inl ⟨rfl, by omega⟩)
  have h := j.hopen _ (List.mem_singleton.2 rfl)
  rw [j'.hopen _ (List.mem_singleton.2 rfl), Res.ok.injEq, Info.mk.injEq] at h
  obtain ⟨-, -, -, -, rfl⟩ := h
  exact C91_sort_partial j j' _ _

end Verif.Flow

/-! ## The file that `filemake` makes -/

namespace Verif.Gen
open Verif.Rules Verif.Params Verif.Files Verif.Layout Verif.Endian Verif.FP Verif.Flow Verif.Extremes Verif.Scalar
open Verif.CCreate Verif.Util
open Verif.Signal (readAt)

theorem dr_covered : ∀ q ∈ dr.map, ∀ e, q.2 = some e → e.kind ≠ .index →
    (e.kind = .float ∨ e.kind = .long) ∧ q.1 ∈ [14, 20, 21, 22, 23, 24, 25, 26, 27, 5] := by
  unfold dr; decide +kernel

/-- The header of a trace is determined by its row. -/
theorem hdr_unique {nt ns k : Nat} {a b : Disk} (ha : Hdr (row nt) ns k a) (hb : Hdr (row nt) ns k b) :
    ∀ x, x < 240 → recByte a ns k x = recByte b ns k x := by
  obtain ⟨p, j, -, p2, p3, p4, p5⟩ := ha
  obtain ⟨q, i, -, q2, q3, q4, q5⟩ := hb
  have key : ∀ m e, (m, some e) ∈ dr.map → e.kind ≠ .index → ∃ v, Is p j m v ∧ Is q i m v := by
    intro m e hm hk
    have hc := (dr_covered _ hm e rfl hk).2
    have hrow := (row_ok nt).map k
    rcases List.mem_cons.1 hc with h | h
    · have h : m = 14 := h
      subst h
      exact ⟨_, p4, q4⟩
    · have h : m ∈ (row nt k).map Prod.fst := by rw [hrow]; exact h
      obtain ⟨y, hy, rfl⟩ := List.mem_map.1 h
      exact ⟨_, p3 y hy, q3 y hy⟩
  refine header_same CCopy.dr_rule.layout p2 q2 p5 q5 (fun m e hm hk => ?_) (fun m e hm hk => ?_) (fun m e hm hk => ?_)
    fun h0 => absurd h0 ?_
  · obtain ⟨v, h1, h2⟩ := key m e hm (by rw [hk]; decide)
    rw [(h1 e hm).1 hk, (h2 e hm).1 hk]
  · obtain ⟨v, h1, h2⟩ := key m e hm (by rw [hk]; decide)
    have e1 := (h1 e hm).2 hk
    have e2 := (h2 e hm).2 hk
    unfold lval at e1 e2
    rw [p2] at e1
    rw [q2] at e2
    exact e1.trans e2.symm
  · rcases (dr_covered _ hm e rfl (by rw [hk]; decide)).1 with h | h <;> rw [hk] at h <;> cases h
  · unfold dr; decide +kernel

theorem foldl_same' (calls : List (Nat × Nat)) : ∀ w : W, (calls.foldl (fun w c => w.writeTrace c.1 c.2) w).text = w.text ∧
    (calls.foldl (fun w c => w.writeTrace c.1 c.2) w).inc = w.inc ∧ (calls.foldl (fun w c => w.writeTrace c.1 c.2) w).ns = w.ns ∧
    (calls.foldl (fun w c => w.writeTrace c.1 c.2) w).writeHO = w.writeHO := by
  induction calls with
  | nil => exact fun w => ⟨rfl, rfl, rfl, rfl⟩
  | cons a l ih => exact fun w => ih _

theorem headerCalls_text (nt ns : Nat) (inc : ℚ) : (headerCalls nt ns inc).text.length ≤ 3200 ∧
    (headerCalls nt ns inc).writeHO = true := by
  have h : (((W.new.writeNs ns).writeNt nt).writeInc inc).text = [] ∧
      (((W.new.writeNs ns).writeNt nt).writeInc inc).writeHO = true := by
    unfold W.writeInc W.writeNt W.writeNs W.new
    split_ifs <;> exact ⟨rfl, rfl⟩
  unfold headerCalls
  generalize ((W.new.writeNs ns).writeNt nt).writeInc inc = w at *
  unfold W.writeText
  split
  · exact ⟨Nat.le_of_eq (shown_length _), rfl⟩
  · exact ⟨by rw [h.1]; exact Nat.zero_le _, h.2⟩

theorem collect_head {α β : Type} {f : α → Res β} {a : α} {l : List α} {ys : List β} (h : Flow.collect f (a :: l) = .ok ys) :
    ∃ y tl, ys = y :: tl ∧ f a = .ok y := by
  unfold Flow.collect at h
  obtain ⟨y, h1, h⟩ := of_bind h
  obtain ⟨tl, -, h⟩ := of_bind h
  rw [Res.ok.injEq] at h
  exact ⟨y, tl, h.symm, h1⟩

/-- The first 3600 bytes of the file. -/
theorem filemake_header {bits : Nat → BitVec 32} {sched : List Put → List Put} {lob : Bool} {P M ns nt : Nat} {inc : ℚ}
    {out out' : Disk} (hP : 0 < P) (h1 : ns ≤ 32767)
    (h : filemake bits sched lob false P M ns nt inc out = .ok out') :
    ∃ b, (headerCalls nt ns inc).header = .ok b ∧ ∀ x, x < 3600 → out'.byte x = b.val x := by
  unfold filemake at h
  split at h
  · cases h
  unfold fileMake at h
  dsimp only at h
  split at h
  · cases h
  rename_i herr
  obtain ⟨shares, -, h⟩ := of_bind h
  obtain ⟨ps, hps, h⟩ := of_bind h
  obtain ⟨o1, -, h⟩ := of_bind h
  obtain ⟨P', rfl⟩ : ∃ P', P = P' + 1 := ⟨P - 1, by omega⟩
  rw [List.range_succ_eq_map] at hps
  obtain ⟨y, tl, rfl, hy⟩ := collect_head hps
  rw [List.map_cons] at h
  unfold process at hy
  obtain ⟨sh, -, hy⟩ := of_bind hy
  obtain ⟨off, lnt, big⟩ := sh
  dsimp only at hy
  obtain ⟨extra, -, hy⟩ := of_bind hy
  obtain ⟨rule, -, hy⟩ := of_bind hy
  rw [if_neg (by decide)] at hy
  obtain ⟨pp, -, hy⟩ := of_bind hy
  rw [Res.ok.injEq] at hy
  subst hy
  dsimp only at h
  obtain ⟨s1, s2⟩ := headerCalls_text nt ns inc
  have hf := foldl_same' ((pieces lnt (perCall (mul64 M (2 ^ 20)) ns) lnt 0).map (fun b => (add64 off b.1, b.2)) ++
    List.replicate extra (0, 0)) (headerCalls nt ns inc)
  obtain ⟨b, b1, b2⟩ := close_bytes (CCopy.foldl_noerr _ _ (Bool.eq_false_iff.2 herr) (headerCalls_ns h1 inc).2.1)
    (hf.2.2.2.trans s2) ((Nat.le_of_eq (congrArg List.length hf.1)).trans s1) h
  exact ⟨b, by rw [← b1]; exact (header_congr hf.1 hf.2.1 hf.2.2.1).symm, b2⟩

/-- **C91** (`filemake` without `-r`; partial). The file is the same to the byte for any two numbers of processes, even or uneven
shares, limits of memory, orders in which the pieces reach the file, and contents of the file before. Missing: more than `2^30`
traces; uneven shares of few traces (`C60_refuted`); intervals that the file cannot hold; limits of memory from `2^40` MiB
(`C89_memory_refuted`); the option `-r` (`C91_scattered_refuted`). -/
theorem C91_filemake_partial (bits : Nat → BitVec 32) (sched sched' : List Put → List Put) (hs : ∀ l, (sched l).Perm l)
    (hs' : ∀ l, (sched' l).Perm l) (lob lob' : Bool) {P P' M M' ns nt : Nat} (hP : 0 < P) (hP' : 0 < P')
    (hlob : lob = true → (P - 1) * (P * (P + 1)) ≤ 4 * nt) (hlob' : lob' = true → (P' - 1) * (P' * (P' + 1)) ≤ 4 * nt)
    (hM0 : 1 ≤ M) (hM1 : M ≤ 2 ^ 40) (hM0' : 1 ≤ M') (hM1' : M' ≤ 2 ^ 40) (h0 : 0 < ns) (h1 : ns ≤ 32767) (hnt : nt ≤ 2 ^ 30)
    {inc : ℚ} {m : ℤ} (hm0 : 1 ≤ m) (hm1 : m ≤ 32767) (hinc : |inc * 10 ^ 6 - m| ≤ 1 / 4) (out out' : Disk) :
    ∃ a b, filemake bits sched lob false P M ns nt inc out = .ok a ∧
      filemake bits sched' lob' false P' M' ns nt inc out' = .ok b ∧ content a = content b := by
  obtain ⟨_, _, _, h⟩ := shares_all (lob := lob) hP hnt hlob
  obtain ⟨_, _, _, h'⟩ := shares_all (lob := lob') hP' hnt hlob'
  obtain ⟨a, a1, a2, -, a4⟩ := contig_run bits sched hs h hP hM0 hM1 h0 h1 hnt hm0 hm1 hinc out
  obtain ⟨b, b1, b2, -, b4⟩ := contig_run bits sched' hs' h' hP' hM0' hM1' h0 h1 hnt hm0 hm1 hinc out'
  refine ⟨a, b, a1, b1, ?_⟩
  obtain ⟨c, c1, c2⟩ := filemake_header hP h1 a1
  obtain ⟨d, d1, d2⟩ := filemake_header hP' h1 b1
  rw [c1, Res.ok.injEq] at d1
  subst d1
  refine same_content a2 b2 (fun x hx => (c2 x hx).trans (d2 x hx).symm) fun p x hp hx => ?_
  by_cases hlt : x < 240
  · exact hdr_unique (a4 p hp).1 (b4 p hp).1 x hlt
  · exact samples_bytes (fun s hs => by rw [(a4 p hp).2 s hs, (b4 p hp).2 s hs]) (by omega) hx

/-- The hypotheses: 100 traces of 7 samples, on three processes with uneven shares and on one. -/
example : ∃ a b, filemake (BitVec.ofNat 32) List.reverse true false 3 64 7 100 (1 / 250) ⟨0, fun _ => 0#8⟩ = .ok a ∧
    filemake (BitVec.ofNat 32) id false false 1 1 7 100 (1 / 250) ⟨10, fun _ => 3#8⟩ = .ok b ∧ content a = content b :=
  C91_filemake_partial (BitVec.ofNat 32) List.reverse id (fun l => List.reverse_perm l) (fun l => List.Perm.refl l) true false
    (m := 4000) (by norm_num) (by norm_num) (by norm_num) (by norm_num) (by norm_num) (by norm_num) (by norm_num) (by norm_num)
    (by norm_num) (by norm_num) (by norm_num) (by norm_num) (by norm_num) (by norm_num) _ _

theorem content_dsamp {ns nt k s : Nat} {a b : Disk} (ha : a.size = 3600 + nt * (240 + 4 * ns))
    (hk : k < nt) (hs : s < ns) (h : content a = content b) : dsamp a ns k s = dsamp b ns k s := by
  have hsz : a.size = b.size := by
    have := congrArg List.length h
    unfold content at this
    rwa [List.length_map, List.length_map, List.length_range, List.length_range] at this
  unfold content at h
  rw [← hsz] at h
  have hb : ∀ x, x < a.size → a.byte x = b.byte x := fun x hx => list_get h hx
  have hle : (k + 1) * (240 + 4 * ns) ≤ nt * (240 + 4 * ns) := Nat.mul_le_mul_right _ hk
  have he : (k + 1) * (240 + 4 * ns) = k * (240 + 4 * ns) + (240 + 4 * ns) := Nat.succ_mul _ _
  unfold dsamp dword
  rw [hb _ (by omega), hb _ (by omega), hb _ (by omega), hb _ (by omega)]

/-- **C91** fails for `filemake -r`: with more traces than processes the file made on one process and the file made on several
differ. -/
theorem C91_scattered_refuted (bits : Nat → BitVec 32) (sched sched' : List Put → List Put) (hs : ∀ l, (sched l).Perm l)
    (hs' : ∀ l, (sched' l).Perm l) {P M M' ns nt : Nat} (hP : 2 ≤ P) (hlt : P < nt)
    (hM0 : 1 ≤ M) (hM1 : M ≤ 2 ^ 40) (hM0' : 1 ≤ M') (hM1' : M' ≤ 2 ^ 40) (h0 : 0 < ns) (h1 : ns ≤ 32767)
    (hnt : nt ≤ 2 ^ 25 - 4800) (hb : bits ns ≠ bits (P * ns))
    {inc : ℚ} {m : ℤ} (hm0 : 1 ≤ m) (hm1 : m ≤ 32767) (hinc : |inc * 10 ^ 6 - m| ≤ 1 / 4) (out out' : Disk) :
    ∃ a b, filemake bits sched false true 1 M ns nt inc out = .ok a ∧
      filemake bits sched' false true P M' ns nt inc out' = .ok b ∧ content a ≠ content b := by
  obtain ⟨a, a1, a2, -, a4⟩ := C89_scattered_partial bits sched hs false (P := 1) (M := M) (ns := ns) (nt := nt) (by omega)
    (by intro h; cases h) hM0 hM1 h0 h1 hnt hm0 hm1 hinc out
  obtain ⟨b, b1, b2, -⟩ := C89_scattered_refuted bits sched' hs' hP hlt hM0' hM1' h0 h1 (by omega) hm0 hm1 hinc out'
  refine ⟨a, b, a1, b1, fun h => hb ?_⟩
  obtain ⟨g, -, hg, hm⟩ := a4 P hlt
  obtain rfl := hg rfl
  have e1 := hm.samples 0 h0
  have e2 := b2 0 h0
  rw [content_dsamp a2 hlt h0 h, e2] at e1
  rw [Nat.add_zero, Nat.add_zero] at e1
  rw [e1]
  congr 1
  omega

/-- The hypotheses: ten traces of two samples on one process and on two. -/
example : ∃ a b, filemake (BitVec.ofNat 32) id false true 1 1 2 10 (1 / 250) ⟨0, fun _ => 0#8⟩ = .ok a ∧
    filemake (BitVec.ofNat 32) id false true 2 1 2 10 (1 / 250) ⟨0, fun _ => 0#8⟩ = .ok b ∧ content a ≠ content b :=
  C91_scattered_refuted (BitVec.ofNat 32) id id (fun l => List.Perm.refl l) (fun l => List.Perm.refl l) (m := 4000)
    (by norm_num) (by norm_num) (by norm_num) (by norm_num) (by norm_num) (by norm_num) (by norm_num) (by norm_num)
    (by norm_num) (by decide) (by norm_num) (by norm_num) (by norm_num) _ _

end Verif.Gen

/-! ## 4D binning -/

namespace Verif.FourDOut
open Verif.Rules Verif.Params Verif.Files Verif.Endian Verif.Layout Verif.FP Verif.Scalar Verif.Util Verif.Flow

/-- Eight traces on a line. -/
def onLine : List (Pt Int) := (List.range 8).map fun n : Nat => spot (n : Int) n

/-- The pairs on one process: the last trace has none. -/
def pairs1 : List (List (Nat × Nat × Int)) := [[(0, 0, 0), (1, 1, 0), (2, 2, 0), (3, 3, 0), (4, 4, 0), (5, 5, 0), (6, 6, 0)]]

/-- The pairs on two processes: the last trace of each is paired with the first one there. -/
def pairs2 : List (List (Nat × Nat × Int)) := [[(0, 0, 0), (1, 1, 0), (2, 2, 0), (3, 0, 6)], [(4, 4, 0), (5, 5, 0), (6, 6, 0), (7, 4, 6)]]

theorem pairs1_eq : collect (fun r => do
    let c1 := ([onLine] : List (List (Pt Int))).getD r []
    let st ← calc4DBin lineGeo r c1 [onLine]
    .ok (matched lineGeo c1 st)) (List.range ([onLine] : List (List (Pt Int))).length) = .ok pairs1 := by
  decide +kernel

theorem pairs2_eq : collect (fun r => do
    let c1 := ([onLine.take 4, onLine.drop 4] : List (List (Pt Int))).getD r []
    let st ← calc4DBin lineGeo r c1 [onLine.take 4, onLine.drop 4]
    .ok (matched lineGeo c1 st)) (List.range ([onLine.take 4, onLine.drop 4] : List (List (Pt Int))).length) = .ok pairs2 := by
  decide +kernel

theorem both_sizes {F : Type} (ops : FloatOps F) (cv : Conv F (BitVec 64)) (hcv : ∀ v, cv.toT v = v) (cvd : Conv F Int) (zero : F)
    (idx : List Nat → List Nat) (hidx : IsSortIndex idx) (sched : List (Put F) → List (Put F)) (hs : ∀ l, (sched l).Perm l)
    (d1 d2 : Disk) (i1 i2 : Info) (hs1 : Source d1 i1) (hs2 : Source d2 i2) (ms : List (List (Nat × Nat × Int)))
    (hP : ms ≠ []) (hlt : ∀ m ∈ ms, ∀ a b v, (a, b, v) ∈ m → a < i1.nt ∧ b < i2.nt)
    (N : Nat) (hN : N = ms.flatten.length) (hN8 : N ≤ 8) (out1 out2 : Disk) :
    ∃ o1 o2, writeBoth ops cv cvd zero idx sched false d1 d2 ms out1 out2 = .ok (o1, o2) ∧
      o1.size = 3600 + N * (240 + 4 * i1.ns) ∧ o2.size = 3600 + N * (240 + 4 * i2.ns) := by
  have hl : ∀ f : Nat × Nat × Int → Nat, ∀ l ∈ ms.map fun m => (m.map f, m.map fun q => q.2.2), l.1.length = l.2.length := by
    intro f l hl
    obtain ⟨m, -, rfl⟩ := List.mem_map.1 hl
    simp
  have hc : ∀ f : Nat × Nat × Int → Nat, N = ((ms.map fun m => (m.map f, m.map fun q => q.2.2)).flatMap fun l => l.1).length := by
    intro f
    rw [hN, List.flatMap_map, List.length_flatMap, List.length_flatten]
    simp
  have hz : ∀ ns, ns ≤ 32767 → 3600 + N * (240 + 4 * ns) < 2 ^ 63 := by
    intro ns h
    have : N * (240 + 4 * ns) ≤ 8 * (240 + 4 * 32767) := Nat.mul_le_mul hN8 (by omega)
    omega
  obtain ⟨o1, e1, e2, -⟩ := C87_output_partial ops cv hcv cvd zero idx hidx sched hs false d1 i1 hs1.opens hs1.size hs1.ns0
    hs1.ns1 hs1.format hs1.inc (ms.map fun m => (m.map fun q => q.1, m.map fun q => q.2.2)) (by simpa using hP) (hl _)
    (by
      intro l hl k hk
      obtain ⟨m, hm, rfl⟩ := List.mem_map.1 hl
      obtain ⟨⟨a, b, v⟩, hq, rfl⟩ := List.mem_map.1 hk
      exact (hlt m hm a b v hq).1) (fun h => by cases h) N (hc _) (hz _ hs1.ns1) out1
  obtain ⟨o2, f1, f2, -⟩ := C87_output_partial ops cv hcv cvd zero idx hidx sched hs false d2 i2 hs2.opens hs2.size hs2.ns0
    hs2.ns1 hs2.format hs2.inc (ms.map fun m => (m.map fun q => q.2.1, m.map fun q => q.2.2)) (by simpa using hP) (hl _)
    (by
      intro l hl k hk
      obtain ⟨m, hm, rfl⟩ := List.mem_map.1 hl
      obtain ⟨⟨a, b, v⟩, hq, rfl⟩ := List.mem_map.1 hk
      exact (hlt m hm a b v hq).2) (fun h => by cases h) N (hc _) (hz _ hs2.ns1) out2
  refine ⟨o1, o2, ?_, e2, f2⟩
  unfold writeBoth
  rw [e1, Res.ok_bind, f1, Res.ok_bind]

theorem content_size {a b : Disk} (h : content a = content b) : a.size = b.size := by
  have := congrArg List.length h
  unfold content at this
  rwa [List.length_map, List.length_map, List.length_range, List.length_range] at this

/-- **C91** fails for 4D binning: two files of eight traces at the same places on a line give outputs of seven traces on one process
and of eight on two, because the last trace of a process is compared with its first partner only (`C48_last_refuted`). -/
theorem C91_binning_refuted {F : Type} (ops : FloatOps F) (cv : Conv F (BitVec 64)) (hcv : ∀ v, cv.toT v = v) (cvd : Conv F Int)
    (zero : F) (idx : List Nat → List Nat) (hidx : IsSortIndex idx) (sched : List (Put F) → List (Put F))
    (hs : ∀ l, (sched l).Perm l) (d1 d2 : Disk) (i1 i2 : Info) (hs1 : Source d1 i1) (hs2 : Source d2 i2) (h1 : i1.nt = 8)
    (h2 : i2.nt = 8) (out1 out2 : Disk) :
    ∃ a1 a2 b1 b2, fourdbin lineGeo ops cv cvd zero idx sched false d1 d2 [onLine] [onLine] out1 out2 = .ok (a1, a2) ∧
      fourdbin lineGeo ops cv cvd zero idx sched false d1 d2 [onLine.take 4, onLine.drop 4] [onLine.take 4, onLine.drop 4]
        out1 out2 = .ok (b1, b2) ∧ content a1 ≠ content b1 ∧ content a2 ≠ content b2 := by
  obtain ⟨a1, a2, e1, e2, e3⟩ := both_sizes ops cv hcv cvd zero idx hidx sched hs d1 d2 i1 i2 hs1 hs2 pairs1 (by decide)
    (by
      rw [h1, h2]
      exact fun m hm a b v hq => (by decide : ∀ m ∈ pairs1, ∀ q ∈ m, q.1 < 8 ∧ q.2.1 < 8) m hm _ hq) 7 rfl (by omega) out1 out2
  obtain ⟨b1, b2, f1, f2, f3⟩ := both_sizes ops cv hcv cvd zero idx hidx sched hs d1 d2 i1 i2 hs1 hs2 pairs2 (by decide)
    (by
      rw [h1, h2]
      exact fun m hm a b v hq => (by decide : ∀ m ∈ pairs2, ∀ q ∈ m, q.1 < 8 ∧ q.2.1 < 8) m hm _ hq) 8 rfl (by omega) out1 out2
  refine ⟨a1, a2, b1, b2, ?_, ?_, fun h => ?_, fun h => ?_⟩
  · unfold fourdbin
    rw [pairs1_eq, Res.ok_bind, e1]
  · unfold fourdbin
    rw [pairs2_eq, Res.ok_bind, f1]
  · have := content_size h
    omega
  · have := content_size h
    omega

example : ∃ a1 a2 b1 b2, fourdbin lineGeo exOps exConvT exConvD 0 insIndex id false (exFile false 8 7#8) (exFile false 8 8#8)
      [onLine] [onLine] ⟨0, fun _ => 0#8⟩ ⟨0, fun _ => 0#8⟩ = .ok (a1, a2) ∧
    fourdbin lineGeo exOps exConvT exConvD 0 insIndex id false (exFile false 8 7#8) (exFile false 8 8#8)
      [onLine.take 4, onLine.drop 4] [onLine.take 4, onLine.drop 4] ⟨0, fun _ => 0#8⟩ ⟨0, fun _ => 0#8⟩ = .ok (b1, b2) ∧
      content a1 ≠ content b1 ∧ content a2 ≠ content b2 := by
  obtain ⟨t1, s1⟩ := exSource 7#8 8 (by decide)
  obtain ⟨t2, s2⟩ := exSource 8#8 8 (by decide)
  exact C91_binning_refuted exOps exConvT (fun _ => rfl) exConvD 0 insIndex insIndex_sorts id (fun l => List.Perm.refl l) _ _ _ _
    s1 s2 rfl rfl _ _

end Verif.FourDOut
