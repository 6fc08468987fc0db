import Verif.Util.CopyTool
import Verif.Props.SortTool
import Verif.Props.MinMaxTool

/-!
# C80: copying a file through the C interface
-/

namespace Verif.CCopy
open Verif.Rules Verif.Params Verif.Files Verif.Layout Verif.Endian Verif.FP Verif.Flow Verif.Extremes Verif.Scalar

variable {F : Type}

theorem dr_rule : RuleOk dr :=
  ⟨dr_reach.inv, C12_known_layout dr dr_reach.inv dr_known, dr_full, dr_start, dr_ltn⟩

/-! ## The samples -/

theorem store_spec {t : Arr Byte} {k : Nat} (v : BitVec 32) (h : 4 * k + 4 ≤ t.len) (hl : t.len ≤ 2 ^ 63) :
    ∃ t', storeF t k v = .ok t' ∧ t'.len = t.len ∧ sample t' k = v ∧ ∀ j, j ≠ k → sample t' j = sample t j := by
  have hlen : (toBEUnsigned 4 v).reverse.length = 4 := by simp [toBEUnsigned]
  obtain ⟨a, h1, -⟩ := Arr.writes_spec (toBEUnsigned 4 v).reverse t (4 * k) (by rw [hlen]; exact h) (by omega)
  have hs : storeF t k v = .ok a := h1
  obtain ⟨e1, e2, e3⟩ := storeF_ok h (by omega) hs
  exact ⟨a, hs, e1, e2, e3⟩

theorem linearInc_spec (lin : Nat → Nat → BitVec 32) (off first n : Nat) : ∀ (k : Nat) (t : Arr Byte),
    4 * (first + k + n) ≤ t.len → t.len ≤ 2 ^ 63 →
    ∃ t', linearInc lin off first t k n = .ok t' ∧ t'.len = t.len ∧
      ∀ x, sample t' x = if first + k ≤ x ∧ x < first + k + n then lin (x - first) off else sample t x := by
  induction n with
  | zero =>
    intro k t _ _
    exact ⟨t, rfl, rfl, fun x => by rw [if_neg (by omega)]⟩
  | succ n ih =>
    intro k t h hl
    obtain ⟨t1, e1, e2, e3, e4⟩ := store_spec (t := t) (k := first + k) (lin k off) (by omega) hl
    obtain ⟨t2, g1, g2, g3⟩ := ih (k + 1) t1 (by rw [e2]; omega) (by rw [e2]; exact hl)
    refine ⟨t2, by unfold linearInc; rw [e1, Res.ok_bind, g1], by rw [g2, e2], fun x => ?_⟩
    rw [g3]
    by_cases hx : x = first + k
    · subst hx
      rw [if_neg (by omega), if_pos (by omega), e3, Nat.add_sub_cancel_left]
    · rw [e4 x hx]
      by_cases hc : first + (k + 1) ≤ x ∧ x < first + (k + 1) + n
      · rw [if_pos hc, if_pos (by omega)]
      · rw [if_neg hc, if_neg (by omega)]

/-- What the loop over `n` traces of `ns` samples leaves, with the samples of all traces numbered through: the call for trace
`i` covers the samples `i … i + ns - 1`, and the last to cover a sample counts. -/
theorem modTraces_spec (lin : Nat → Nat → BitVec 32) (off ns : Nat) (h0 : 0 < ns) (n : Nat) : ∀ (i : Nat) (t : Arr Byte),
    (0 < n → 4 * (i + n + ns - 1) ≤ t.len) → t.len ≤ 2 ^ 63 →
    ∃ t', modTraces lin off ns t i n = .ok t' ∧ t'.len = t.len ∧
      ∀ x, sample t' x =
        if 0 < n ∧ i ≤ x ∧ x < i + n + ns - 1 then lin (x - min x (i + n - 1)) off else sample t x := by
  induction n with
  | zero =>
    intro i t _ _
    exact ⟨t, rfl, rfl, fun x => by rw [if_neg (by omega)]⟩
  | succ n ih =>
    intro i t h hl
    have h := h (by omega)
    obtain ⟨t1, e1, e2, e3⟩ := linearInc_spec lin off i ns 0 t (by omega) hl
    obtain ⟨t2, g1, g2, g3⟩ := ih (i + 1) t1 (fun _ => by rw [e2]; omega) (by rw [e2]; exact hl)
    refine ⟨t2, by unfold modTraces; rw [e1, Res.ok_bind, g1], by rw [g2, e2], fun x => ?_⟩
    rw [g3, e3]
    by_cases hc : 0 < n ∧ i + 1 ≤ x ∧ x < i + 1 + n + ns - 1
    · rw [if_pos hc, if_pos (by omega)]
      congr 2; omega
    · rw [if_neg hc]
      by_cases hd : i + 0 ≤ x ∧ x < i + 0 + ns
      · rw [if_pos hd, if_pos (by omega)]
        congr 1; omega
      · rw [if_neg hd, if_neg (by omega)]

/-! ## One call -/

/-- Sample `s` of trace `j` of a call for `n` traces from `off`, after the modification of the samples if there is one. -/
def sampleOut (lin : Nat → Nat → BitVec 32) (trc : Bool) (d : Disk) (ns off n j s : Nat) : BitVec 32 :=
  if trc ∧ j * ns + s < n + ns - 1 then lin (j * ns + s - min (j * ns + s) (n - 1)) off else dsamp d ns (off + j) s

/-- What the output has for trace `off + j` after a call for `n` traces from `off` that may modify samples. -/
structure Put (N : Num F) (trc : Bool) (ns : Nat) (d : Disk) (off n j : Nat) (o : Disk) : Prop where
  samples : ∀ s, s < ns → dsamp o ns (off + j) s = sampleOut N.lin trc d ns off n j s
  header : ∃ (p : Param F) (row : Nat), WF p ∧ p.rule = dr ∧ row < p.sz ∧
    Decoded N.ops (dhdr d ns (off + j)) row 0 p dr.map ∧
    Header (fsOf N.ops) (enOf N.ops) p row (dhdr o ns (off + j))

theorem Put.congr {N : Num F} {trc : Bool} {ns off n j : Nat} {d o o' : Disk} (h : Put N trc ns d off n j o)
    (he : ∀ x, taddr ns (off + j) ≤ x ∧ x < taddr ns (off + j) + (240 + 4 * ns) → o'.byte x = o.byte x) :
    Put N trc ns d off n j o' := by
  obtain ⟨p, row, h1, h2, h3, h4, h6⟩ := h.header
  refine ⟨fun s hs => ?_, p, row, h1, h2, h3, h4, Header.congr (by rw [h2]; exact dr_rule.layout) h6 ?_⟩
  · rw [dsamp_congr hs fun x hx => he x ⟨by omega, hx.2⟩]
    exact h.samples s hs
  · intro x hx
    refine he _ ⟨?_, ?_⟩ <;> (unfold taddr; omega)

/-- What a file to be copied needs. -/
structure FileOk (i : Info) (d : Disk) : Prop where
  ns0 : 0 < i.ns
  ns1 : i.ns ≤ 32767
  size : taddr i.ns i.nt < 2 ^ 63
  disk : taddr i.ns i.nt ≤ d.size
  format : i.format ≠ 1#16

theorem call_bytes {i : Info} {d : Disk} (h : FileOk i d) {n : Nat} (hn : n ≤ i.nt) :
    mul64 n (getDFSz i.ns) = 4 * (n * i.ns) := by
  have := sample_bytes h.size hn
  have h1 := h.ns1
  unfold getDFSz
  rw [mul64_eq (a := i.ns) (by omega)]
  have e : n * (i.ns * 4) = 4 * (n * i.ns) := by ring
  rw [mul64_eq (by omega), e]

theorem copyBlock_empty (N : Num F) (junk : Nat → Byte) (m : Mods) (i : Info) (d : Disk) (off : Nat) (out : Disk) :
    copyBlock N junk m i d (off, 0) out = .abort := by
  unfold copyBlock
  rw [ctor_default, Res.ok_bind, if_pos (by unfold mul64; simp)]

theorem copyBlock_spec (N : Num F) (hcv : ∀ v, N.toT.toT v = v) (hconv : Convertible N.ops) (junk : Nat → Byte)
    (trc : Bool) (i : Info) (d : Disk) (hf : FileOk i d) (off n : Nat) (hn : 0 < n) (hle : off + n ≤ i.nt) (o : Disk) :
    ∃ o', copyBlock N junk ⟨trc, false⟩ i d (off, n) o = .ok o' ∧
      (∀ j, j < n → Put N trc i.ns d off n j o') ∧
      ∀ x, (∀ k ∈ List.range' off n, ¬ (taddr i.ns k ≤ x ∧ x < taddr i.ns k + (240 + 4 * i.ns))) → o'.byte x = o.byte x := by
  have hbytes := sample_bytes hf.size (show n ≤ i.nt by omega)
  have hlen := call_bytes hf (show n ≤ i.nt by omega)
  have hnt := nt_lt hf.size
  have hcl : clamp i.nt off n = n := by rw [clamp_eq (by omega) (by omega) (by omega)]; omega
  have hsm : Small i.ns (.start off) n i.nt := by
    have := clamp_small (sz := n) hf.size (show off ≤ i.nt by omega) (by omega)
    rwa [hcl] at this
  have htr : ∀ j, j < n → (Where.start off).trace j = off + j := fun j hj => hsm.trace_start hj
  have hinc : Inc (.start off) n := by
    intro a b hab hb
    rw [htr a (by omega), htr b hb]; omega
  have hpos : 0 < n * i.ns := Nat.mul_pos hn hf.ns0
  obtain ⟨t', p', r1, -, -, r2, r3⟩ := read_spec N.ops N.toT hcv i.ns (.start off) n (some ⟨4 * (n * i.ns), junk⟩)
    (some (Params.mk N.zero dr n)) 0 d i.nt hsm (fun a b h1 h2 => Nat.le_of_lt (hinc a b h1 h2))
    (fun a ha => Nat.le_trans (taddr_le (hsm.lt a ha)) hf.disk)
    (by
      rintro t h; cases h
      exact ⟨by show 4 * (i.ns * n) ≤ 4 * (n * i.ns); rw [Nat.mul_comm i.ns], hbytes⟩)
    (by rintro p h; cases h; exact ⟨dr_rule.rd N.zero n, Nat.le_refl _⟩) (by simp)
  obtain ⟨t, rfl, hsamp⟩ := r2 _ rfl
  obtain ⟨p, rfl, hrows⟩ := r3 _ rfl
  have hpr : p.rule = dr := hrows.rule
  have hpz : p.sz = n := hrows.size
  have htl : t.len = 4 * (n * i.ns) := hsamp.len
  -- the samples afterwards
  obtain ⟨t1, m1, m2, m3⟩ : ∃ t1, (if trc then modTraces N.lin off i.ns t 0 n else .ok t) = .ok t1 ∧
      t1.len = t.len ∧ ∀ j s, j < n → s < i.ns → sample t1 (j * i.ns + s) = sampleOut N.lin trc d i.ns off n j s := by
    have hs0 : ∀ j s, j < n → s < i.ns → sample t (j * i.ns + s) = dsamp d i.ns (off + j) s := by
      intro j s hj hs
      rw [hsamp.samples j s hj hs, htr j hj]
    unfold sampleOut
    cases trc with
    | false => exact ⟨t, rfl, rfl, fun j s hj hs => by rw [if_neg (by simp), hs0 j s hj hs]⟩
    | true =>
      have hb : n + i.ns - 1 ≤ n * i.ns := by
        obtain ⟨a, ha⟩ : ∃ a, n = a + 1 := ⟨n - 1, by omega⟩
        obtain ⟨b, hb⟩ : ∃ b, i.ns = b + 1 := ⟨i.ns - 1, by have := hf.ns0; omega⟩
        rw [ha, hb, Nat.add_mul, Nat.mul_add]; omega
      obtain ⟨t1, q1, q2, q3⟩ := modTraces_spec N.lin off i.ns hf.ns0 n 0 t (fun _ => by rw [htl]; omega) (by omega)
      refine ⟨t1, by rw [if_pos rfl, q1], q2, fun j s hj hs => ?_⟩
      rw [q3]
      by_cases hc : j * i.ns + s < n + i.ns - 1
      · rw [if_pos (by omega), if_pos ⟨rfl, hc⟩, Nat.zero_add]
      · rw [if_neg (by omega), if_neg (by simp; omega), hs0 j s hj hs]
  have hdec : ∀ j, j < n → Decoded N.ops (dhdr d i.ns (off + j)) j 0 p dr.map := by
    intro j hj
    have := hrows.dec j hj
    rwa [htr j hj, Nat.add_zero] at this
  have hfloat : ∀ x, x < p.f.len → ∃ s v, p.f.val x = N.ops.decode s v := by
    intro x hx
    rw [hrows.wf.f, hpr, hpz] at hx
    have hpos : 0 < dr.cnt .float := by
      rcases Nat.eq_zero_or_pos (dr.cnt .float) with h | h
      · rw [h] at hx; omega
      · exact h
    obtain ⟨m, e, hm, hk, hnum⟩ := slot_of dr_rule.inv .float (Nat.mod_lt x hpos)
    have hj : x / dr.cnt .float < n := by rw [Nat.div_lt_iff_lt_mul hpos]; exact hx
    have := (hdec _ hj m e hm).2.2 hk
    rw [hpr, hnum, Nat.div_add_mod'] at this
    exact ⟨_, _, this⟩
  obtain ⟨o', w1, w5, w6, w3, -, -, -⟩ := write_spec N.ops i.ns (.start off) n (some t1) (some p) 0 o i.nt hsm hinc
    (by
      rintro q h; cases h
      rw [m2, htl]
      exact ⟨by rw [Nat.mul_comm i.ns], hbytes⟩)
    (by
      rintro q h; cases h
      refine ⟨⟨hrows.wf, by rw [hpr]; exact dr_rule.layout, by rw [hpr]; exact dr_rule.full, by rw [hpr]; exact dr_rule.start,
        fun x hx => ?_, fun x hx s' => ?_⟩, by omega⟩
      · obtain ⟨s, v, he⟩ := hfloat x hx
        rw [he]; exact (hconv s v).1
      · obtain ⟨s, v, he⟩ := hfloat x hx
        rw [he]; exact (hconv s v).2 s') (by simp)
  refine ⟨o', ?_, ?_, ?_⟩
  · unfold copyBlock
    rw [ctor_default, Res.ok_bind]
    simp only [hlen]
    rw [if_neg (by omega)]
    unfold cReadTrace readTrace
    simp only [decide_eq_false hf.format, hcl]
    rw [r1, Res.ok_bind]
    simp only
    rw [m1, Res.ok_bind]
    simp only [Bool.false_eq_true, if_false, Res.ok_bind]
    unfold cWriteTrace
    simp only
    rw [w1, Res.ok_bind]
  · intro j hj
    refine ⟨fun s hs => ?_, p, j, hrows.wf, hpr, by omega, hdec j hj, ?_⟩
    · have := w5 t1 rfl j s hj hs
      rw [htr j hj] at this
      rw [this, m3 j s hj hs]
    · have := w6 p rfl j hj
      rwa [htr j hj] at this
  · intro x hx
    refine w3 x fun j hj => ?_
    have := hx (off + j) (by rw [List.mem_range'_1]; omega)
    rw [htr j hj]
    exact ⟨fun _ => by omega, fun _ => by omega⟩

/-! ## All calls -/

theorem runCalls_spec (N : Num F) (hcv : ∀ v, N.toT.toT v = v) (hconv : Convertible N.ops) (junk : Nat → Byte)
    (trc : Bool) (i : Info) (d : Disk) (hf : FileOk i d) (l : List (Nat × Nat)) : ∀ o,
    (∀ c ∈ l, 0 < c.2 ∧ c.1 + c.2 ≤ i.nt) → (l.flatMap fun c => List.range' c.1 c.2).Nodup →
    ∃ o', runCalls N junk ⟨trc, false⟩ i d l o = .ok o' ∧
      (∀ c ∈ l, ∀ j, j < c.2 → Put N trc i.ns d c.1 c.2 j o') ∧
      ∀ x, (∀ k ∈ l.flatMap fun c => List.range' c.1 c.2, ¬ (taddr i.ns k ≤ x ∧ x < taddr i.ns k + (240 + 4 * i.ns))) →
        o'.byte x = o.byte x := by
  induction l with
  | nil => intro o _ _; exact ⟨o, rfl, by simp, fun _ _ => rfl⟩
  | cons c l ih =>
    intro o hc hn
    rw [List.flatMap_cons, List.nodup_append] at hn
    obtain ⟨c1, c2⟩ := hc c (by simp)
    obtain ⟨o1, e1, e3, e4⟩ := copyBlock_spec N hcv hconv junk trc i d hf c.1 c.2 c1 c2 o
    obtain ⟨o2, g1, g3, g4⟩ := ih o1 (fun x hx => hc x (by simp [hx])) hn.2.1
    refine ⟨o2, ?_, ?_, ?_⟩
    · unfold runCalls
      rw [e1, Res.ok_bind, g1]
    · intro b hb j hj
      rcases List.mem_cons.1 hb with rfl | hb
      · refine (e3 j hj).congr fun x hx => g4 x fun q hq hc => ?_
        have hne : b.1 + j ≠ q := fun he => hn.2.2 (b.1 + j) (by rw [List.mem_range'_1]; omega) q hq he
        exact apart (k := b.1 + j) (k' := q) (a := 0) (c := 0) hx (Nat.le_refl _) (Nat.le_refl _)
          (fun he => absurd he hne) hc
      · exact g3 b hb j hj
    · intro x hx
      rw [g4 x fun k hk => hx k (by rw [List.flatMap_cons]; exact List.mem_append.2 (Or.inr hk)),
        e4 x fun k hk => hx k (by rw [List.flatMap_cons]; exact List.mem_append.2 (Or.inl hk))]

theorem runCalls_abort (N : Num F) (hcv : ∀ v, N.toT.toT v = v) (hconv : Convertible N.ops) (junk : Nat → Byte)
    (trc : Bool) (i : Info) (d : Disk) (hf : FileOk i d) (l : List (Nat × Nat)) : ∀ o,
    (∀ c ∈ l, 0 < c.2 → c.1 + c.2 ≤ i.nt) → (∃ c ∈ l, c.2 = 0) →
    runCalls N junk ⟨trc, false⟩ i d l o = .abort := by
  induction l with
  | nil => rintro o _ ⟨c, hc, -⟩; simp at hc
  | cons c l ih =>
    intro o hc he
    unfold runCalls
    rcases Nat.eq_zero_or_pos c.2 with h | h
    · rw [show c = (c.1, 0) by rw [← h], copyBlock_empty]; rfl
    · obtain ⟨o1, e1, -⟩ := copyBlock_spec N hcv hconv junk trc i d hf c.1 c.2 h (hc c (by simp) h) o
      rw [show c = (c.1, c.2) from rfl, e1, Res.ok_bind]
      refine ih o1 (fun x hx => hc x (by simp [hx])) ?_
      obtain ⟨x, hx, hz⟩ := he
      rcases List.mem_cons.1 hx with rfl | hx
      · omega
      · exact ⟨x, hx, hz⟩

theorem spans_spec (tcnt goff lnt : Nat) (ht : 0 < tcnt) (b : Nat) : ∀ k, lnt - k ≤ b →
    (spans tcnt goff lnt k).flatMap (fun c => List.range' c.1 c.2) = List.range' (goff + k) (lnt - k) ∧
    (spans tcnt goff lnt k).length = ceil (lnt - k) tcnt ∧
    ∀ c ∈ spans tcnt goff lnt k, 0 < c.2 ∧ goff ≤ c.1 ∧ c.1 + c.2 ≤ goff + lnt := by
  have hend : ∀ k, lnt ≤ k →
      (spans tcnt goff lnt k).flatMap (fun c => List.range' c.1 c.2) = List.range' (goff + k) (lnt - k) ∧
      (spans tcnt goff lnt k).length = ceil (lnt - k) tcnt ∧
      ∀ c ∈ spans tcnt goff lnt k, 0 < c.2 ∧ goff ≤ c.1 ∧ c.1 + c.2 ≤ goff + lnt := by
    intro k hk
    have : spans tcnt goff lnt k = [] := by unfold spans; rw [dif_neg (by omega)]
    rw [this, show lnt - k = 0 by omega]
    have := ceil_le 0 tcnt ht
    exact ⟨rfl, by simp; omega, by simp⟩
  induction b with
  | zero => exact fun k hk => hend k (by omega)
  | succ b ih =>
    intro k hk
    by_cases hlt : k < lnt
    · obtain ⟨i1, i2, i3⟩ := ih (k + tcnt) (by omega)
      have hs : spans tcnt goff lnt k =
          (goff + k, if k + tcnt < lnt then tcnt else lnt - k) :: spans tcnt goff lnt (k + tcnt) := by
        conv_lhs => unfold spans
        rw [dif_pos ⟨hlt, ht⟩]
      have hmin : (if k + tcnt < lnt then tcnt else lnt - k) = min tcnt (lnt - k) := by split <;> omega
      rw [hmin] at hs
      rw [hs]
      refine ⟨?_, ?_, ?_⟩
      · rw [List.flatMap_cons, i1]
        dsimp only
        rcases Nat.lt_or_ge tcnt (lnt - k) with hc | hc
        · rw [Nat.min_eq_left (by omega), show goff + (k + tcnt) = goff + k + tcnt by omega, List.range'_append_1]
          congr 1; omega
        · rw [Nat.min_eq_right hc, show lnt - (k + tcnt) = 0 by omega]
          simp
      · rw [List.length_cons, i2, ceil_pos (lnt - k) tcnt ht (by omega), show lnt - k - tcnt = lnt - (k + tcnt) by omega]
      · intro c hc
        rcases List.mem_cons.1 hc with rfl | hc
        · dsimp only; omega
        · exact i3 c hc
    · exact hend k (by omega)

theorem extra_eq {tcnt lnt biggest : Nat} (ht : 0 < tcnt) (hle : lnt ≤ biggest) (hb : biggest < 2 ^ 63) :
    extra tcnt lnt biggest = ceil biggest tcnt - ceil lnt tcnt := by
  have c1 := ceil_eq biggest tcnt ht
  have c2 := ceil_eq lnt tcnt ht
  have c3 := ceil_mono tcnt hle
  have c4 := ceil_le biggest tcnt ht
  have c5 : lnt / tcnt ≤ biggest / tcnt := Nat.div_le_div_right hle
  unfold extra
  have hx1 : (if 0 < biggest % tcnt then 1 else 0) ≤ 1 := by split <;> omega
  have hy1 : (if 0 < lnt % tcnt then 1 else 0) ≤ 1 := by split <;> omega
  generalize (if 0 < biggest % tcnt then 1 else 0) = x at *
  generalize (if 0 < lnt % tcnt then 1 else 0) = y at *
  generalize biggest / tcnt = b at *
  generalize lnt / tcnt = l at *
  rw [sub64_eq (a := b) (b := l) (by omega) (by omega), add64_eq (by omega),
    sub64_eq (by omega) (by omega)]
  omega

/-- The calls of process `r`. -/
def procCalls (nt P tcnt biggest r : Nat) : List (Nat × Nat) :=
  callsOf tcnt (Decomp.off nt P r) (Decomp.sz nt P r) biggest

theorem biggest_spec (nt P : Nat) (hP : 0 < P) :
    ((List.range P).map (Decomp.sz nt P)).foldl max 0 = Decomp.sz nt P 0 ∧
      ∀ r, r < P → Decomp.sz nt P r ≤ Decomp.sz nt P 0 := by
  have h0 : ∀ r, r < P → Decomp.sz nt P r ≤ Decomp.sz nt P 0 := by
    intro r _
    unfold Decomp.sz
    split
    · rw [if_pos (by omega)]
    · omega
  refine ⟨Nat.le_antisymm ?_ ?_, h0⟩
  · apply foldl_max_le _ _ _ (Nat.zero_le _)
    intro x hx
    obtain ⟨r, hr, rfl⟩ := List.mem_map.1 hx
    exact h0 r (List.mem_range.1 hr)
  · exact (le_foldl_max _ 0).2 _ (List.mem_map.2 ⟨0, List.mem_range.2 hP, rfl⟩)

theorem ceil_succ {q t : Nat} (ht : 0 < t) (h : ¬ t ∣ q) : ceil (q + 1) t = ceil q t := by
  rw [← ceil_eq q t ht, ← ceil_eq (q + 1) t ht]
  have hm : 0 < q % t := Nat.pos_of_ne_zero fun he => h (Nat.dvd_of_mod_eq_zero he)
  have hlt := Nat.mod_lt q ht
  rw [if_pos hm]
  have e := Nat.div_add_mod q t
  rcases Nat.lt_or_ge (q % t + 1) t with hc | hc
  · have h1 : (q + 1) / t = q / t := by
      rw [Nat.div_eq_iff ht]
      constructor
      · rw [Nat.mul_comm]; omega
      · rw [Nat.mul_comm]; omega
    have h2 : (q + 1) % t = q % t + 1 := by
      have := Nat.div_add_mod (q + 1) t
      rw [h1] at this; omega
    rw [h1, h2, if_pos (by omega)]
  · have h0 : q + 1 = (q / t + 1) * t := by rw [Nat.add_mul, Nat.one_mul, Nat.mul_comm]; omega
    rw [h0, Nat.mul_div_cancel _ ht, Nat.mul_mod_left, if_neg (by omega)]

theorem ceil_dvd {q t : Nat} (ht : 0 < t) (h : t ∣ q) : ceil (q + 1) t = ceil q t + 1 := by
  obtain ⟨a, rfl⟩ := h
  rw [← ceil_eq (t * a + 1) t ht, ← ceil_eq (t * a) t ht, Nat.mul_mod_right, Nat.mul_div_cancel_left _ ht,
    if_neg (Nat.lt_irrefl 0)]
  have h1 : (t * a + 1) / t + (if 0 < (t * a + 1) % t then 1 else 0) = a + 1 := by
    rcases Nat.lt_or_ge 1 t with hc | hc
    · rw [Nat.mul_add_div ht, Nat.div_eq_of_lt hc, Nat.mul_add_mod, Nat.mod_eq_of_lt hc]; rfl
    · have : t = 1 := by omega
      subst this
      simp [Nat.mod_one]
  omega

/-- All processes need the same number of rounds. -/
theorem same_rounds {nt P t : Nat} (ht : 0 < t) (h : nt % P = 0 ∨ ¬ t ∣ nt / P) {r : Nat} :
    ceil (Decomp.sz nt P r) t = ceil (Decomp.sz nt P 0) t := by
  unfold Decomp.sz
  rcases h with h | h
  · rw [h, if_neg (by omega), if_neg (by omega)]
  · have hc := ceil_succ ht h
    split <;> split <;> simp [hc]

/-- The last process needs fewer than the first. -/
theorem other_rounds {nt P t : Nat} (ht : 0 < t) (hP : 0 < P) (h : nt % P ≠ 0) (h' : t ∣ nt / P) :
    ceil (Decomp.sz nt P (P - 1)) t < ceil (Decomp.sz nt P 0) t := by
  have hlt := Nat.mod_lt nt hP
  unfold Decomp.sz
  rw [if_neg (by omega), if_pos (by omega), Nat.add_zero, ceil_dvd ht h']
  omega

theorem procCalls_spec {nt P tcnt r : Nat} (ht : 0 < tcnt) (hP : 0 < P) (hr : r < P) (hnt : nt < 2 ^ 63) :
    procCalls nt P tcnt (Decomp.sz nt P 0) r = spans tcnt (Decomp.off nt P r) (Decomp.sz nt P r) 0 ++
      List.replicate (ceil (Decomp.sz nt P 0) tcnt - ceil (Decomp.sz nt P r) tcnt) (Decomp.off nt P r, 0) ∧
    (procCalls nt P tcnt (Decomp.sz nt P 0) r).length = ceil (Decomp.sz nt P 0) tcnt ∧
    (∀ c ∈ procCalls nt P tcnt (Decomp.sz nt P 0) r, c.1 + c.2 ≤ nt) := by
  have hle := (biggest_spec nt P hP).2 r hr
  have h0 := Decomp.sz_le nt P 0 hP hP
  have hoff := Decomp.off_le nt P (r + 1) hP hr
  rw [Decomp.off_succ] at hoff
  have he : procCalls nt P tcnt (Decomp.sz nt P 0) r = spans tcnt (Decomp.off nt P r) (Decomp.sz nt P r) 0 ++
      List.replicate (ceil (Decomp.sz nt P 0) tcnt - ceil (Decomp.sz nt P r) tcnt) (Decomp.off nt P r, 0) := by
    unfold procCalls callsOf
    rw [extra_eq ht hle (by omega)]
  obtain ⟨-, s2, s3⟩ := spans_spec tcnt (Decomp.off nt P r) (Decomp.sz nt P r) ht _ 0 (Nat.le_refl _)
  refine ⟨he, ?_, ?_⟩
  · rw [he, List.length_append, s2, List.length_replicate, Nat.sub_zero]
    have := ceil_mono tcnt hle
    omega
  · intro c hc
    rw [he] at hc
    rcases List.mem_append.1 hc with hc | hc
    · have := s3 c hc; omega
    · rw [List.eq_of_mem_replicate hc]; dsimp only; omega

/-- The calls of all processes. -/
theorem allCalls_spec {nt P tcnt : Nat} (ht : 0 < tcnt) (hP : 0 < P) (hnt : nt < 2 ^ 63)
    (h : nt % P = 0 ∨ ¬ tcnt ∣ nt / P) :
    (((List.range P).map (procCalls nt P tcnt (Decomp.sz nt P 0))).flatten.flatMap fun c => List.range' c.1 c.2) =
      List.range nt ∧
    ∀ c ∈ ((List.range P).map (procCalls nt P tcnt (Decomp.sz nt P 0))).flatten, 0 < c.2 ∧ c.1 + c.2 ≤ nt := by
  have he : ∀ r, r < P → procCalls nt P tcnt (Decomp.sz nt P 0) r =
      spans tcnt (Decomp.off nt P r) (Decomp.sz nt P r) 0 := by
    intro r hr
    rw [(procCalls_spec ht hP hr hnt).1, same_rounds (r := r) ht h, Nat.sub_self, List.replicate_zero, List.append_nil]
  constructor
  · rw [← List.flatMap_def, List.flatMap_assoc]
    have := Decomp.flatMap_range nt P P
    rw [Decomp.off_last nt P hP] at this
    rw [← this]
    refine List.flatMap_congr fun r hr => ?_
    rw [he r (List.mem_range.1 hr), (spans_spec tcnt _ _ ht _ 0 (Nat.le_refl _)).1]
    rfl
  · intro c hc
    rw [← List.flatMap_def] at hc
    obtain ⟨r, hr, hc⟩ := List.mem_flatMap.1 hc
    have hr := List.mem_range.1 hr
    refine ⟨?_, (procCalls_spec ht hP hr hnt).2.2 c hc⟩
    rw [he r hr] at hc
    exact ((spans_spec tcnt _ _ ht _ 0 (Nat.le_refl _)).2.2 c hc).1

/-! ## The header -/

/-- The calls of all processes as a history. -/
def history (i : Info) (P tcnt : Nat) : List Files.Step :=
  [.text (cstr i.text), .ns i.ns, .nt i.nt, .inc i.inc] ++
    (List.range (ceil (Decomp.sz i.nt P 0) tcnt)).map fun c =>
      .write fun r => (procCalls i.nt P tcnt (Decomp.sz i.nt P 0) r)[c]?.getD (0, 0)

theorem foldl_writes (r : Nat) (g : Nat → Nat → Nat × Nat) (l : List Nat) : ∀ w : W,
    (l.map fun c => Files.Step.write fun r => g r c).foldl (Step.act r) w =
      (l.map (g r)).foldl (fun w c => w.writeTrace c.1 c.2) w := by
  induction l with
  | nil => intro w; rfl
  | cons a l ih => intro w; exact ih _

theorem history_eq {i : Info} {P tcnt r : Nat} (ht : 0 < tcnt) (hP : 0 < P) (hr : r < P) (hnt : i.nt < 2 ^ 63) :
    (procCalls i.nt P tcnt (Decomp.sz i.nt P 0) r).foldl (fun w c => w.writeTrace c.1 c.2) (headerCalls i) =
      runW1 r (history i P tcnt) := by
  unfold runW1 history
  rw [List.foldl_append, foldl_writes r (fun r c => (procCalls i.nt P tcnt (Decomp.sz i.nt P 0) r)[c]?.getD (0, 0)),
    ← (procCalls_spec ht hP hr hnt).2.1]
  have : (List.range (procCalls i.nt P tcnt (Decomp.sz i.nt P 0) r).length).map (fun c =>
      (procCalls i.nt P tcnt (Decomp.sz i.nt P 0) r)[c]?.getD (0, 0)) = procCalls i.nt P tcnt (Decomp.sz i.nt P 0) r := by
    apply List.ext_getElem
    · simp
    · intro n h1 h2
      simp [h2]
  rw [this]
  rfl

theorem headerCalls_ok {i : Info} (h1 : i.ns ≤ 32767) (hinc : (2 : ℚ) ^ (-1022 : ℤ) ≤ |i.inc|) :
    (headerCalls i).err = false ∧ (headerCalls i).nsSet = true := by
  unfold headerCalls
  have ht : ∀ w : W, w.err = false → (w.writeText (cstr i.text)).err = false := by
    intro w h; unfold W.writeText; split <;> exact h
  have hn : ∀ w : W, w.err = false → (w.writeNs i.ns).err = false ∧ (w.writeNs i.ns).nsSet = true := by
    intro w h; unfold W.writeNs; rw [if_neg (by omega)]; split <;> exact ⟨h, rfl⟩
  have hc : ∀ w : W, w.err = false ∧ w.nsSet = true → (w.writeNt i.nt).err = false ∧ (w.writeNt i.nt).nsSet = true := by
    intro w h; unfold W.writeNt; split <;> exact h
  obtain ⟨a1, a2⟩ := hc _ (hn _ (ht W.new rfl))
  obtain ⟨b1, b2⟩ := W.writeInc_ok (w := ((W.new.writeText (cstr i.text)).writeNs i.ns).writeNt i.nt) hinc
  exact ⟨by rw [b1, a1], by rw [b2, a2]⟩

theorem foldl_noerr (l : List (Nat × Nat)) : ∀ w : W, w.err = false → w.nsSet = true →
    (l.foldl (fun w c => w.writeTrace c.1 c.2) w).err = false := by
  induction l with
  | nil => intro w h _; exact h
  | cons a l ih =>
    intro w h1 h2
    exact ih _ (by show (w.err || !w.nsSet) = false; rw [h1, h2]; rfl) h2

theorem last_write {α : Type} (sel : Files.Step → Option α) (hsel : ∀ f, sel (.write f) = none) (cs : List Nat)
    (g : Nat → Nat → Nat × Nat) (h : List Files.Step) :
    last? sel (h ++ cs.map fun c => Files.Step.write (g c)) = last? sel h := by
  unfold last?
  rw [List.filterMap_append]
  have : (cs.map fun c => Files.Step.write (g c)).filterMap sel = [] := by
    rw [List.filterMap_eq_nil_iff]
    intro x hx
    obtain ⟨c, -, rfl⟩ := List.mem_map.1 hx
    exact hsel _
  rw [this, List.append_nil]

theorem history_count {i : Info} {P tcnt : Nat} (ht : 0 < tcnt) (hP : 0 < P) (hnt : i.nt < 2 ^ 63) :
    IsCount P (history i P tcnt) i.nt := by
  refine Or.inl ⟨[.text (cstr i.text), .ns i.ns], .inc i.inc :: (List.range (ceil (Decomp.sz i.nt P 0) tcnt)).map fun c =>
      .write fun r => (procCalls i.nt P tcnt (Decomp.sz i.nt P 0) r)[c]?.getD (0, 0), rfl, ?_, fun r hr => ⟨?_, ?_, ?_⟩⟩
  · have := last_write Files.Step.nt? (fun _ => rfl) (List.range (ceil (Decomp.sz i.nt P 0) tcnt)) (fun c r =>
      (procCalls i.nt P tcnt (Decomp.sz i.nt P 0) r)[c]?.getD (0, 0)) [.inc i.inc]
    exact this
  · intro f hf
    rcases List.mem_cons.1 hf with hf | hf
    · cases hf
    · obtain ⟨c, hc, hf⟩ := List.mem_map.1 hf
      cases hf
      dsimp only
      have hc := List.mem_range.1 hc
      rw [← (procCalls_spec ht hP hr hnt).2.1] at hc
      rw [List.getElem?_eq_getElem hc]
      exact (procCalls_spec ht hP hr hnt).2.2 _ (List.getElem_mem hc)
  · intro f hf
    rcases List.mem_cons.1 hf with hf | hf
    · cases hf
    · obtain ⟨c, hc, hf⟩ := List.mem_map.1 hf
      cases hf
  · intro f hf
    rcases List.mem_cons.1 hf with hf | hf
    · cases hf
    · obtain ⟨c, hc, hf⟩ := List.mem_map.1 hf
      cases hf

theorem cstr_chr {t : List Nat} (h : ∀ x ∈ t, x < 256) : ∀ x ∈ cstr t, x < 256 := fun x hx =>
  h x ((List.takeWhile_sublist _).subset hx)

theorem close_copy {i : Info} {P tcnt : Nat} (ht : 0 < tcnt) (hP : 0 < P) (h0 : 0 < i.ns) (h1 : i.ns ≤ 32767)
    (hsz : taddr i.ns i.nt < 2 ^ 63) (hinc : (2 : ℚ) ^ (-1022 : ℤ) ≤ |i.inc|) {m : ℤ} (hm0 : -2 ^ 63 ≤ m) (hm1 : m < 2 ^ 63)
    (hm : lround (rnd (i.inc / micro)) = m) (htext : ∀ x ∈ i.text, x < 256) (o : Disk) :
    ∃ o', close (((List.range P).map (procCalls i.nt P tcnt (Decomp.sz i.nt P 0))).map fun l =>
        l.foldl (fun w c => w.writeTrace c.1 c.2) (headerCalls i)) o = .ok o' ∧
      o'.size = plainSz i.nt i.ns ∧ (∀ x, 3600 ≤ x → o'.byte x = o.byte x) ∧
      openRead o' = .ok ⟨i.ns, i.nt, rnd (micro * (BitVec.ofInt 16 m).toInt), 5#16, CharEnc.readText (shown (cstr i.text))⟩ := by
  have hnt := nt_lt hsz
  have heq : (((List.range P).map (procCalls i.nt P tcnt (Decomp.sz i.nt P 0))).map fun l =>
      l.foldl (fun w c => w.writeTrace c.1 c.2) (headerCalls i)) = runAllW P (history i P tcnt) := by
    unfold runAllW
    rw [List.map_map]
    exact List.map_congr_left fun r hr => history_eq ht hP (List.mem_range.1 hr) hnt
  have hl : ∀ {α : Type} (sel : Files.Step → Option α), (∀ f, sel (.write f) = none) →
      last? sel (history i P tcnt) = last? sel [.text (cstr i.text), .ns i.ns, .nt i.nt, .inc i.inc] :=
    fun sel hs => last_write sel hs _ (fun c r => (procCalls i.nt P tcnt (Decomp.sz i.nt P 0) r)[c]?.getD (0, 0)) _
  rw [heq]
  have := close_stored P hP (history i P tcnt) o i.ns i.nt m ?_ ?_ (by omega) (history_count ht hP hnt) hsz hm0 hm1 ?_ ?_
  · obtain ⟨o', e1, e2, e3, e4⟩ := this
    refine ⟨o', e1, e2, e3, ?_⟩
    rw [hl Files.Step.text? (fun _ => rfl)] at e4
    exact e4
  · intro r hr
    rw [← history_eq ht hP hr hnt]
    obtain ⟨a1, a2⟩ := headerCalls_ok h1 hinc
    exact foldl_noerr _ _ a1 a2
  · rw [hl Files.Step.ns? (fun _ => rfl)]; rfl
  · rw [hl Files.Step.inc? (fun _ => rfl)]; exact hm
  · rw [hl Files.Step.text? (fun _ => rfl)]; exact cstr_chr htext

/-! ## What a reader of the input learns -/

theorem readText_lt {h : List Nat} (hh : ∀ x ∈ h, x < 256) : ∀ x ∈ CharEnc.readText h, x < 256 := by
  have hA : ∀ e ∈ List.range 256, CharEnc.toASCII e < 256 := by decide +kernel
  unfold CharEnc.readText
  split
  · exact hh
  · intro x hx
    obtain ⟨e, he, rfl⟩ := List.mem_map.1 hx
    exact hA e (List.mem_range.2 (hh e he))

theorem openRead_text {d : Disk} {i : Info} (h : openRead d = .ok i) :
    (∀ x ∈ i.text, x < 256) ∧ (0 < i.ns → i.text.length = 3200) := by
  unfold openRead at h
  split at h
  · obtain ⟨b, -, h⟩ := of_bind h
    obtain ⟨ns, -, h⟩ := of_bind h
    obtain ⟨nt, -, h⟩ := of_bind h
    obtain ⟨iv, -, h⟩ := of_bind h
    obtain ⟨ty, -, h⟩ := of_bind h
    rw [Res.ok.injEq] at h
    subst h
    dsimp only
    refine ⟨readText_lt fun x hx => ?_, fun _ => ?_⟩
    · obtain ⟨k, -, rfl⟩ := List.mem_map.1 hx
      exact (b.val k).isLt
    · unfold CharEnc.readText
      split <;> simp [CharEnc.textSz]
  · rw [Res.ok.injEq] at h
    subst h
    simp

theorem fileOk {d : Disk} {i : Info} (h : openRead d = .ok i) (hd : d.size < 2 ^ 63) (h0 : 0 < i.ns) (h1 : i.ns ≤ 32767)
    (hf : i.format ≠ 1#16) : FileOk i d := by
  obtain ⟨o1, -⟩ := openRead_of h hd h0 h1
  exact ⟨h0, h1, Nat.lt_of_le_of_lt o1 hd, o1, hf⟩

theorem perCall_eq {memmax ns : Nat} (h1 : ns ≤ 32767) : perCall memmax ns = memmax / max (4 * ns) 240 := by
  unfold perCall getDFSz getMDSz
  rw [mul64_eq (by omega), Nat.mul_comm]

/-- The run up to the calls. -/
theorem run_calls (N : Num F) (junk : Nat → Byte) (sched : List (Nat × Nat) → List (Nat × Nat)) (P : Nat) (hP : 0 < P)
    (memmax : Nat) (m : Mods) (d : Disk) (i : Info) (hopen : openRead d = .ok i) (hd : d.size < 2 ^ 63) (h0 : 0 < i.ns)
    (h1 : i.ns ≤ 32767) (hinc : (2 : ℚ) ^ (-1022 : ℤ) ≤ |i.inc|) (ht : 0 < memmax / max (4 * i.ns) 240) (out : Disk) :
    readWriteFile N junk sched P memmax m d out =
      (runCalls N junk m i d (sched ((List.range P).map
        (procCalls i.nt P (memmax / max (4 * i.ns) 240) (Decomp.sz i.nt P 0))).flatten) out >>= fun o =>
      close (((List.range P).map (procCalls i.nt P (memmax / max (4 * i.ns) 240) (Decomp.sz i.nt P 0))).map fun l =>
        l.foldl (fun w c => w.writeTrace c.1 c.2) (headerCalls i)) o) := by
  obtain ⟨o1, -⟩ := openRead_of hopen hd h0 h1
  have hnt := nt_lt (Nat.lt_of_le_of_lt o1 hd)
  have hdec : Flow.collect (Decomp.blockDecomposition i.nt P) (List.range P) =
      .ok ((List.range P).map fun r => (⟨Decomp.off i.nt P r, Decomp.sz i.nt P r⟩ : Decomp.Dec)) :=
    collect_ok fun r hr => Decomp.blockDecomposition_eq hP (List.mem_range.1 hr) (by omega)
  have hbig : (((List.range P).map fun r => (⟨Decomp.off i.nt P r, Decomp.sz i.nt P r⟩ : Decomp.Dec)).map
      (·.localSize)).foldl max 0 = Decomp.sz i.nt P 0 := by
    rw [List.map_map]
    exact (biggest_spec i.nt P hP).1
  unfold readWriteFile
  rw [hopen, Res.ok_bind]
  simp only [(headerCalls_ok h1 hinc).1, Bool.false_eq_true, if_false]
  rw [hdec, Res.ok_bind]
  simp only [perCall_eq h1]
  rw [if_neg (by omega), hbig, List.map_map]
  rfl

/-- What the copy has of trace `k`: the samples and the four numbers of the default rule as they were; for the coordinates,
the value (scalar times integer); all else is zero. -/
structure Carried (ns : Nat) (d : Disk) (k : Nat) (o : Disk) : Prop where
  samples : ∀ x, 240 ≤ x → x < 240 + 4 * ns → recByte o ns k x = recByte d ns k x
  numbers : ∀ loc ∈ [5, 37, 189, 193], be32 o ns k loc = be32 d ns k loc
  coords : Usable (be16 d ns k 71) → Accepted (be16 o ns k 71) ∧ ∀ loc ∈ place,
    unit (be16 o ns k 71) * (be32 o ns k loc).toInt = unit (be16 d ns k 71) * (be32 d ns k loc).toInt
  rest : ∀ x, x < 240 → (∀ loc ∈ [5, 37, 189, 193] ++ place, ¬ (loc ≤ x + 1 ∧ x + 1 < loc + 4)) → ¬ (71 ≤ x + 1 ∧ x + 1 < 73) →
    recByte o ns k x = 0#8

theorem dr_entries : ∀ q ∈ dr.map, ∃ e, q.2 = some e ∧ (e.kind = .index ∨
    e.kind = .long ∧ e.loc ∈ [5, 37, 189, 193] ∨ e.kind = .float ∧ e.loc ∈ place ∧ e.scalLoc = 71) := by
  unfold dr; decide +kernel

theorem dr_numbers : ∀ loc ∈ [5, 37, 189, 193], ∃ q ∈ dr.map, ∃ e, q.2 = some e ∧ e.kind = .long ∧ e.loc = loc := by
  unfold dr; decide +kernel

theorem dr_coords : ∀ loc ∈ place, ∃ q ∈ dr.map, ∃ e, q.2 = some e ∧ e.kind = .float ∧ e.loc = loc ∧ e.scalLoc = 71 := by
  unfold dr; decide +kernel

theorem narrow32 (v : BitVec 32) : (v.signExtend 64).setWidth 32 = v := by
  ext i hi
  rw [BitVec.getElem_setWidth, BitVec.getLsbD_signExtend]
  simp [hi]
  omega

theorem Put.carried {N : Num ℚ} (hN : N.ops = dbl) {ns : Nat} {d o : Disk} {off n j : Nat}
    (h : Put N false ns d off n j o) : Carried ns d (off + j) o := by
  obtain ⟨p, row, hp, hr, hrow, hdec, hh⟩ := h.header
  rw [hN] at hdec hh
  have hcoord : ∀ loc ∈ place, Usable (be16 d ns (off + j) 71) → Accepted (be16 o ns (off + j) 71) ∧
      unit (be16 o ns (off + j) 71) * (be32 o ns (off + j) loc).toInt =
        unit (be16 d ns (off + j) 71) * (be32 d ns (off + j) loc).toInt := by
    intro loc hl hu
    obtain ⟨q, hq, e, he, hk, h1, h2⟩ := dr_coords loc hl
    have hm : (q.1, some e) ∈ p.rule.map := by rw [hr, ← he]; exact hq
    have := again_coords (fs := fsOf dbl) (en := enOf dbl) (fun v s h => by
      show okOr 1#16 (findScalar v) = s; rw [h]; rfl)
      (fun v s n h => by show okOr 0#32 (encode v s) = n; rw [h]; rfl) (by rw [hr]; exact hdec) hh.items hm hk (by
        rw [Nat.zero_add, h2]
        exact hu)
    rw [Nat.zero_add, Nat.zero_add, h1, h2] at this
    exact ⟨this.1, this.2.1⟩
  refine ⟨?_, ?_, fun hu => ⟨(hcoord 73 (by decide) hu).1, fun loc hl => (hcoord loc hl hu).2⟩, ?_⟩
  · refine fun x h1 h2 => Again.sampleBytes (ops := N.ops) (rule := dr) ⟨fun s hs => ?_, ?_⟩ h1 h2
    · rw [h.samples s hs]
      unfold sampleOut
      rw [if_neg (by simp)]
    · obtain ⟨p, row, a1, a2, a3, a4, a5⟩ := h.header
      exact ⟨p, row, a1, a2, a3, a4, fun hc => absurd dr_copy hc, a5⟩
  · intro loc hl
    obtain ⟨q, hq, e, he, hk, rfl⟩ := dr_numbers loc hl
    have hm : (q.1, some e) ∈ dr.map := by rw [← he]; exact hq
    have g1 := (hdec q.1 e hm).2.1 hk
    have g2 := (hh.items q.1 e (by rw [hr]; exact hm)).2.1 hk
    rw [g1, Nat.zero_add, narrow32] at g2
    exact g2
  · intro x hx hl hs
    have h1 := hh.rest x hx (by
      rintro ⟨m, e, he, hcase⟩
      rw [hr] at he
      obtain ⟨e', e1, hk⟩ := dr_entries _ he
      cases e1
      rcases hk with hk | ⟨hk, hm⟩ | ⟨hk, hm, hsc⟩
      · rcases hcase with ⟨hv, -⟩ | ⟨hv, -⟩
        · rcases hv with hv | hv | hv <;> rw [hk] at hv <;> cases hv
        · rw [hk] at hv; cases hv
      · rcases hcase with ⟨-, a, b⟩ | ⟨hv, -⟩
        · rw [hk] at b
          simp only [width] at b
          exact hl _ (List.mem_append.2 (Or.inl hm)) (by omega)
        · rw [hk] at hv; cases hv
      · rcases hcase with ⟨-, a, b⟩ | ⟨-, a, b⟩
        · rw [hk] at b
          simp only [width] at b
          exact hl _ (List.mem_append.2 (Or.inr hm)) (by omega)
        · rw [hsc] at a b
          exact hs (by omega))
    rw [hr, dr_copy, if_neg (by simp)] at h1
    exact h1

theorem run_spec (N : Num F) (hcv : ∀ v, N.toT.toT v = v) (hconv : Convertible N.ops) (junk : Nat → Byte)
    (sched : List (Nat × Nat) → List (Nat × Nat)) (hs : ∀ l, (sched l).Perm l) (P : Nat) (hP : 0 < P) (memmax : Nat)
    (trc : Bool) (d : Disk) (i : Info) (hopen : openRead d = .ok i) (hd : d.size < 2 ^ 63) (h0 : 0 < i.ns)
    (h1 : i.ns ≤ 32767) (hinc : 0 < i.inc) (hfmt : i.format ≠ 1#16) (hmem : max (4 * i.ns) 240 ≤ memmax)
    (hr : i.nt % P = 0 ∨ ¬ memmax / max (4 * i.ns) 240 ∣ i.nt / P) (out : Disk) :
    ∃ out', readWriteFile N junk sched P memmax ⟨trc, false⟩ d out = .ok out' ∧
      openRead out' = .ok ⟨i.ns, i.nt, i.inc, 5#16, CharEnc.readText (shown (cstr i.text))⟩ ∧
      out'.size = 3600 + i.nt * (240 + 4 * i.ns) ∧
      ∀ c ∈ ((List.range P).map (procCalls i.nt P (memmax / max (4 * i.ns) 240) (Decomp.sz i.nt P 0))).flatten,
        ∀ j, j < c.2 → Put N trc i.ns d c.1 c.2 j out' := by
  have hf := fileOk hopen hd h0 h1 hfmt
  have ht : 0 < memmax / max (4 * i.ns) 240 := Nat.div_pos hmem (by omega)
  have hnt := nt_lt hf.size
  obtain ⟨-, iv, hiv⟩ := openRead_of hopen hd h0 h1
  obtain ⟨i1, i2, i3, i4⟩ := inc_again (iv := iv) (by rw [← hiv]; exact hinc)
  rw [← hiv] at i1 i2
  obtain ⟨a1, a2⟩ := allCalls_spec ht hP hnt hr
  have hp := hs ((List.range P).map (procCalls i.nt P (memmax / max (4 * i.ns) 240) (Decomp.sz i.nt P 0))).flatten
  obtain ⟨o1, b1, b2, -⟩ := runCalls_spec N hcv hconv junk trc i d hf _ out (fun c hc => a2 c (hp.mem_iff.1 hc)) (by
    have := hp.flatMap_right (fun c : Nat × Nat => List.range' c.1 c.2)
    rw [this.nodup_iff, a1]
    exact List.nodup_range)
  obtain ⟨o2, c1, c2, c3, c4⟩ := close_copy ht hP h0 h1 hf.size i1 (by omega) (by omega) i2 (openRead_text hopen).1 o1
  refine ⟨o2, ?_, ?_, c2, fun c hc j hj => ?_⟩
  · rw [run_calls N junk sched P hP memmax _ d i hopen hd h0 h1 i1 ht out, b1, Res.ok_bind, c1]
  · rw [BitVec.ofInt_toInt, ← hiv] at c4
    exact c4
  · refine (b2 c (hp.mem_iff.2 hc) j hj).congr fun x hx => c3 x ?_
    have : 3600 ≤ taddr i.ns (c.1 + j) := by unfold taddr; omega
    omega

/-- **C80**. The copying example, without options that modify: for any number of processes, any schedule of their calls, any
memory limit that allows a trace, and any file that opens with samples in the IEEE format and a positive interval, if all
processes need the same number of rounds, the program ends and its output opens with the same number of samples, number of
traces and interval, and has of every trace the samples, the four numbers and the coordinates of the default rule, and nothing
else of the header. The text is what a reader makes of the old text up to its first NUL (see `C80_text_partial`). Missing from
a copy, and false of the program: `C80_rounds_refuted`, `C80_memory_refuted`, `C80_interval_refuted`, `C80_header_refuted`. -/
theorem C80_copy_partial (N : Num ℚ) (hN : N.ops = dbl) (hcv : ∀ v, N.toT.toT v = v) (junk : Nat → Byte)
    (sched : List (Nat × Nat) → List (Nat × Nat)) (hs : ∀ l, (sched l).Perm l) (P : Nat) (hP : 0 < P) (memmax : Nat)
    (d : Disk) (i : Info) (hopen : openRead d = .ok i) (hd : d.size < 2 ^ 63) (h0 : 0 < i.ns)
    (h1 : i.ns ≤ 32767) (hinc : 0 < i.inc) (hfmt : i.format ≠ 1#16) (hmem : max (4 * i.ns) 240 ≤ memmax)
    (hr : i.nt % P = 0 ∨ ¬ memmax / max (4 * i.ns) 240 ∣ i.nt / P) (out : Disk) :
    ∃ out', readWriteFile N junk sched P memmax ⟨false, false⟩ d out = .ok out' ∧
      openRead out' = .ok ⟨i.ns, i.nt, i.inc, 5#16, CharEnc.readText (shown (cstr i.text))⟩ ∧
      out'.size = 3600 + i.nt * (240 + 4 * i.ns) ∧ ∀ k, k < i.nt → Carried i.ns d k out' := by
  obtain ⟨o, e1, e2, e3, e4⟩ := run_spec N hcv (by rw [hN]; exact convertible) junk sched hs P hP memmax false d i hopen hd
    h0 h1 hinc hfmt hmem hr out
  refine ⟨o, e1, e2, e3, fun k hk => ?_⟩
  have hf := fileOk hopen hd h0 h1 hfmt
  obtain ⟨a1, -⟩ := allCalls_spec (Nat.div_pos hmem (by omega)) hP (nt_lt hf.size) hr
  have hm := List.mem_range.2 hk
  rw [← a1] at hm
  obtain ⟨c, hc, hk'⟩ := List.mem_flatMap.1 hm
  rw [List.mem_range'_1] at hk'
  have := (e4 c hc (k - c.1) (by omega)).carried hN
  rwa [show c.1 + (k - c.1) = k by omega] at this

/-- **C80**: a text of printable characters with at least one below 0x40 is the text of the copy. -/
theorem C80_text_partial (d : Disk) (i : Info) (hopen : openRead d = .ok i) (h0 : 0 < i.ns)
    (hp : ∀ c ∈ i.text, 0x20 ≤ c ∧ c ≤ 0x7E) (hw : ∃ c ∈ i.text, c < 0x40) :
    CharEnc.readText (shown (cstr i.text)) = i.text := by
  have hl := (openRead_text hopen).2 h0
  have hc : cstr i.text = i.text := by
    unfold cstr
    have hk : ∀ l : List Nat, (∀ c ∈ l, 0x20 ≤ c) → l.takeWhile (· ≠ 0) = l := by
      intro l
      induction l with
      | nil => intro _; rfl
      | cons a l ih =>
        intro h
        have := h a (by simp)
        rw [List.takeWhile_cons, if_pos (by simp; omega), ih fun c hc => h c (by simp [hc])]
    exact hk _ fun c hc => (hp c hc).1
  rw [hc, C21_text_partial i.text (by omega) hp hw]
  unfold CharEnc.padded
  rw [hl]
  simp

/-- **C80** refuted when one process needs fewer rounds than another: more processes than traces is one such case, and
with `t` traces per call so is any number of traces that is not a multiple of the number of processes and leaves the last
process a multiple of `t`. The processes without traces left call with none, and an assertion fails there. -/
theorem C80_rounds_refuted (N : Num F) (hcv : ∀ v, N.toT.toT v = v) (hconv : Convertible N.ops) (junk : Nat → Byte)
    (sched : List (Nat × Nat) → List (Nat × Nat)) (hs : ∀ l, (sched l).Perm l) (P : Nat) (hP : 0 < P) (memmax : Nat)
    (d : Disk) (i : Info) (hopen : openRead d = .ok i) (hd : d.size < 2 ^ 63) (h0 : 0 < i.ns)
    (h1 : i.ns ≤ 32767) (hinc : 0 < i.inc) (hfmt : i.format ≠ 1#16) (hmem : max (4 * i.ns) 240 ≤ memmax)
    (hr : i.nt % P ≠ 0) (hr' : memmax / max (4 * i.ns) 240 ∣ i.nt / P) (out : Disk) :
    readWriteFile N junk sched P memmax ⟨false, false⟩ d out = .abort := by
  have hf := fileOk hopen hd h0 h1 hfmt
  have ht : 0 < memmax / max (4 * i.ns) 240 := Nat.div_pos hmem (by omega)
  have hnt := nt_lt hf.size
  obtain ⟨-, iv, hiv⟩ := openRead_of hopen hd h0 h1
  obtain ⟨i1, -⟩ := inc_again (iv := iv) (by rw [← hiv]; exact hinc)
  rw [← hiv] at i1
  have hp := hs ((List.range P).map (procCalls i.nt P (memmax / max (4 * i.ns) 240) (Decomp.sz i.nt P 0))).flatten
  rw [run_calls N junk sched P hP memmax _ d i hopen hd h0 h1 i1 ht out,
    runCalls_abort N hcv hconv junk false i d hf _ out ?_ ?_]
  · rfl
  · intro c hc _
    have hc := hp.mem_iff.1 hc
    rw [← List.flatMap_def] at hc
    obtain ⟨r, hr, hc⟩ := List.mem_flatMap.1 hc
    exact (procCalls_spec ht hP (List.mem_range.1 hr) hnt).2.2 c hc
  · refine ⟨(Decomp.off i.nt P (P - 1), 0), hp.mem_iff.2 ?_, rfl⟩
    rw [← List.flatMap_def]
    refine List.mem_flatMap.2 ⟨P - 1, List.mem_range.2 (by omega), ?_⟩
    rw [(procCalls_spec ht hP (show P - 1 < P by omega) hnt).1]
    refine List.mem_append.2 (Or.inr (List.mem_replicate.2 ⟨?_, rfl⟩))
    have := other_rounds ht hP hr hr'
    omega

/-- **C80** refuted for a memory limit below the size of a trace (or of a header): division by zero. -/
theorem C80_memory_refuted (N : Num F) (junk : Nat → Byte) (sched : List (Nat × Nat) → List (Nat × Nat)) (P : Nat)
    (hP : 0 < P) (memmax : Nat) (m : Mods) (d : Disk) (i : Info) (hopen : openRead d = .ok i) (hd : d.size < 2 ^ 63)
    (h0 : 0 < i.ns) (h1 : i.ns ≤ 32767) (hinc : 0 < i.inc) (hmem : memmax < max (4 * i.ns) 240) (out : Disk) :
    readWriteFile N junk sched P memmax m d out = .ub := by
  obtain ⟨o1, iv, hiv⟩ := openRead_of hopen hd h0 h1
  obtain ⟨i1, -⟩ := inc_again (iv := iv) (by rw [← hiv]; exact hinc)
  rw [← hiv] at i1
  have hnt := nt_lt (Nat.lt_of_le_of_lt o1 hd)
  have hdec : Flow.collect (Decomp.blockDecomposition i.nt P) (List.range P) =
      .ok ((List.range P).map fun r => (⟨Decomp.off i.nt P r, Decomp.sz i.nt P r⟩ : Decomp.Dec)) :=
    collect_ok fun r hr => Decomp.blockDecomposition_eq hP (List.mem_range.1 hr) (by omega)
  unfold readWriteFile
  rw [hopen, Res.ok_bind]
  simp only [(headerCalls_ok h1 i1).1, Bool.false_eq_true, if_false]
  rw [hdec, Res.ok_bind]
  simp only [perCall_eq h1]
  rw [if_pos (Nat.div_eq_of_lt hmem)]

/-- **C80** refuted for files whose interval is 0: the program ends with an error and copies nothing. -/
theorem C80_interval_refuted (N : Num F) (junk : Nat → Byte) (sched : List (Nat × Nat) → List (Nat × Nat)) (P : Nat)
    (memmax : Nat) (m : Mods) (d : Disk) (i : Info) (hopen : openRead d = .ok i) (hinc : i.inc = 0) (out : Disk) :
    readWriteFile N junk sched P memmax m d out = .abort := by
  have : (headerCalls i).err = true := by
    unfold headerCalls W.writeInc
    rw [hinc, if_pos (by rw [abs_zero]; exact zpow_pos (by norm_num) _)]
  unfold readWriteFile
  rw [hopen, Res.ok_bind]
  simp only [this, if_true]

/-- **C80** refuted for the options that ask for modifications, `-p` and `-t`, and for options the program does not know:
they have no argument, and the length of the argument is asked for all the same. -/
theorem C80_flags_refuted (N : Num F) (junk : Nat → Byte) (sched : List (Nat × Nat) → List (Nat × Nat)) (P : Nat)
    (scan : String → Option Nat) (files : String → Disk) (l l' : List (Char × Option String)) (o : Char)
    (hl : ∀ x ∈ l, ∃ a, x.2 = some a ∧ (x.1 = 'm' → scan a ≠ none)) :
    creadwrite N junk sched P scan files (l ++ (o, none) :: l') = .ub := by
  have h : ∀ (l : List (Char × Option String)), (∀ x ∈ l, ∃ a, x.2 = some a ∧ (x.1 = 'm' → scan a ≠ none)) →
      ∀ c, options scan c (l ++ (o, none) :: l') = .ub := by
    intro l
    induction l with
    | nil => intro _ c; rfl
    | cons x l ih =>
      intro hl c
      obtain ⟨a, ha, hm⟩ := hl x (by simp)
      have ih := ih fun y hy => hl y (by simp [hy])
      obtain ⟨x1, x2⟩ := x
      dsimp only at ha hm
      subst ha
      rw [List.cons_append]
      unfold options
      split
      · exact ih _
      split
      · exact ih _
      split
      · rename_i h'
        cases hs : scan a with
        | none => exact absurd hs (hm h')
        | some n => exact ih _
      split
      · exact ih _
      split
      · exact ih _
      · exact ih _
  unfold creadwrite
  rw [h l hl]
  rfl

/-- **C80**: the program with its input and output named and no memory limit copies as `C80_copy_partial` says. -/
theorem C80_main_partial (N : Num ℚ) (hN : N.ops = dbl) (hcv : ∀ v, N.toT.toT v = v) (junk : Nat → Byte)
    (sched : List (Nat × Nat) → List (Nat × Nat)) (hs : ∀ l, (sched l).Perm l) (P : Nat) (hP : 0 < P)
    (scan : String → Option Nat) (files : String → Disk) (a b : String)
    (i : Info) (hopen : openRead (files a) = .ok i) (hd : (files a).size < 2 ^ 63) (h0 : 0 < i.ns)
    (h1 : i.ns ≤ 32767) (hinc : 0 < i.inc) (hfmt : i.format ≠ 1#16)
    (hr : i.nt % P = 0 ∨ ¬ 2 ^ 31 / max (4 * i.ns) 240 ∣ i.nt / P) :
    ∃ out', creadwrite N junk sched P scan files [('i', some a), ('o', some b)] = .ok (some (b, out')) ∧
      openRead out' = .ok ⟨i.ns, i.nt, i.inc, 5#16, CharEnc.readText (shown (cstr i.text))⟩ ∧
      ∀ k, k < i.nt → Carried i.ns (files a) k out' := by
  obtain ⟨o, e1, e2, -, e4⟩ := C80_copy_partial N hN hcv junk sched hs P hP (2 ^ 31) (files a) i hopen hd h0 h1 hinc hfmt
    (by omega) hr (files b)
  refine ⟨o, ?_, e2, e4⟩
  have : options scan .start [('i', some a), ('o', some b)] = .ok (some ⟨some a, some b, 2 ^ 31, ⟨false, false⟩⟩) := rfl
  unfold creadwrite
  rw [this, Res.ok_bind]
  simp only
  rw [e1, Res.ok_bind]

/-- **C80** refuted for header bytes outside the items of the default rule: one that is not zero is lost. -/
theorem C80_header_refuted (N : Num ℚ) (hN : N.ops = dbl) (hcv : ∀ v, N.toT.toT v = v) (junk : Nat → Byte)
    (sched : List (Nat × Nat) → List (Nat × Nat)) (hs : ∀ l, (sched l).Perm l) (P : Nat) (hP : 0 < P) (memmax : Nat)
    (d : Disk) (i : Info) (hopen : openRead d = .ok i) (hd : d.size < 2 ^ 63) (h0 : 0 < i.ns)
    (h1 : i.ns ≤ 32767) (hinc : 0 < i.inc) (hfmt : i.format ≠ 1#16) (hmem : max (4 * i.ns) 240 ≤ memmax)
    (hr : i.nt % P = 0 ∨ ¬ memmax / max (4 * i.ns) 240 ∣ i.nt / P) (k : Nat) (hk : k < i.nt)
    (hne : recByte d i.ns k 8 ≠ 0#8) (out : Disk) :
    ∃ out', readWriteFile N junk sched P memmax ⟨false, false⟩ d out = .ok out' ∧
      recByte out' i.ns k 8 ≠ recByte d i.ns k 8 := by
  obtain ⟨o, e1, -, -, e4⟩ := C80_copy_partial N hN hcv junk sched hs P hP memmax d i hopen hd h0 h1 hinc hfmt hmem hr out
  refine ⟨o, e1, ?_⟩
  rw [(e4 k hk).rest 8 (by omega) (by decide) (by omega)]
  exact hne.symm

theorem readText_replicate {k w : Nat} (h : CharEnc.printableASCII w = false) :
    CharEnc.readText (List.replicate k w) = List.replicate k (CharEnc.toASCII w) := by
  unfold CharEnc.readText
  rw [List.countP_replicate, h, if_neg (by simp), List.map_replicate]

/-- **C80** refuted for texts with a NUL: of a text that starts with one nothing is left in the copy, whatever follows. -/
theorem C80_nul_refuted (N : Num ℚ) (hN : N.ops = dbl) (hcv : ∀ v, N.toT.toT v = v) (junk : Nat → Byte)
    (sched : List (Nat × Nat) → List (Nat × Nat)) (hs : ∀ l, (sched l).Perm l) (P : Nat) (hP : 0 < P) (memmax : Nat)
    (d : Disk) (i : Info) (hopen : openRead d = .ok i) (hd : d.size < 2 ^ 63) (h0 : 0 < i.ns)
    (h1 : i.ns ≤ 32767) (hinc : 0 < i.inc) (hfmt : i.format ≠ 1#16) (hmem : max (4 * i.ns) 240 ≤ memmax)
    (hr : i.nt % P = 0 ∨ ¬ memmax / max (4 * i.ns) 240 ∣ i.nt / P) (hn : i.text[0]? = some 0) (out : Disk) :
    ∃ out' i', readWriteFile N junk sched P memmax ⟨false, false⟩ d out = .ok out' ∧ openRead out' = .ok i' ∧
      i'.text = List.replicate 3200 0 := by
  obtain ⟨o, e1, e2, -⟩ := C80_copy_partial N hN hcv junk sched hs P hP memmax d i hopen hd h0 h1 hinc hfmt hmem hr out
  refine ⟨o, _, e1, e2, ?_⟩
  have hc : cstr i.text = [] := by
    unfold cstr
    cases ht : i.text with
    | nil => rfl
    | cons a l =>
      rw [ht] at hn
      simp only [List.getElem?_cons_zero, Option.some.injEq] at hn
      rw [List.takeWhile_cons, if_neg (by simp [hn])]
  have hs : ∀ k, List.take k ([] : List Nat) ++ List.replicate (k - ([] : List Nat).length) 0 = List.replicate k 0 := by
    intro k; simp
  show CharEnc.readText (shown (cstr i.text)) = _
  rw [hc]
  unfold shown
  rw [hs, readText_replicate (by decide), (by decide +kernel : CharEnc.toASCII 0 = 0)]

/-- **C80** refuted for the modification of samples: one process copies a file of at least two traces of at least two samples
in one call; the modification is done at sample `k` of the first trace for trace `k`, and the last sample of the file is not
reached. -/
theorem C80_linear_refuted (N : Num F) (hcv : ∀ v, N.toT.toT v = v) (hconv : Convertible N.ops) (junk : Nat → Byte)
    (sched : List (Nat × Nat) → List (Nat × Nat)) (hs : ∀ l, (sched l).Perm l) (memmax : Nat)
    (d : Disk) (i : Info) (hopen : openRead d = .ok i) (hd : d.size < 2 ^ 63) (h0 : 2 ≤ i.ns)
    (h1 : i.ns ≤ 32767) (hinc : 0 < i.inc) (hfmt : i.format ≠ 1#16) (hnt : 2 ≤ i.nt)
    (hmem : i.nt * max (4 * i.ns) 240 ≤ memmax) (out : Disk) :
    ∃ out', readWriteFile N junk sched 1 memmax ⟨true, false⟩ d out = .ok out' ∧
      dsamp out' i.ns (i.nt - 1) (i.ns - 1) = dsamp d i.ns (i.nt - 1) (i.ns - 1) := by
  have hm : 0 < max (4 * i.ns) 240 := by omega
  have ht : i.nt ≤ memmax / max (4 * i.ns) 240 := (Nat.le_div_iff_mul_le hm).2 hmem
  have hm1 : max (4 * i.ns) 240 ≤ memmax := Nat.le_trans (by
    have := Nat.mul_le_mul_right (max (4 * i.ns) 240) (show 1 ≤ i.nt by omega)
    omega) hmem
  obtain ⟨o, e1, -, -, e4⟩ := run_spec N hcv hconv junk sched hs 1 (by omega) memmax true d i hopen hd (by omega) h1 hinc hfmt
    hm1 (Or.inl (Nat.mod_one _)) out
  refine ⟨o, e1, ?_⟩
  have hsz : Decomp.sz i.nt 1 0 = i.nt := by unfold Decomp.sz; simp [Nat.mod_one]
  have hoff : Decomp.off i.nt 1 0 = 0 := Decomp.off_zero _ _
  have hc : (0, i.nt) ∈ ((List.range 1).map (procCalls i.nt 1 (memmax / max (4 * i.ns) 240) (Decomp.sz i.nt 1 0))).flatten := by
    rw [← List.flatMap_def]
    refine List.mem_flatMap.2 ⟨0, by simp, ?_⟩
    unfold procCalls callsOf
    refine List.mem_append.2 (Or.inl ?_)
    rw [hsz, hoff]
    unfold spans
    rw [dif_pos (by omega), if_neg (by omega)]
    simp
  have := (e4 _ hc (i.nt - 1) (by dsimp only; omega)).samples (i.ns - 1) (by omega)
  dsimp only at this
  rw [Nat.zero_add] at this
  rw [this]
  unfold sampleOut
  obtain ⟨a, ha⟩ : ∃ a, i.nt = a + 2 := ⟨i.nt - 2, by omega⟩
  obtain ⟨b, hb⟩ : ∃ b, i.ns = b + 2 := ⟨i.ns - 2, by omega⟩
  rw [if_neg, Nat.zero_add]
  rintro ⟨-, hc⟩
  rw [ha, hb, show a + 2 - 1 = a + 1 by omega, Nat.add_mul, Nat.mul_add] at hc
  omega

theorem moveSource_spec (cv : Conv F F) (num : Nat → F) (hF : ∀ v, cv.ofF (cv.toF v) = v) (off i : Nat) (p : Param F)
    (hp : WF p) (hr : p.rule = dr) (hi : i < p.sz) :
    ∃ p', moveSource cv num off i p = .ok p' ∧ WF p' ∧ p'.rule = dr ∧ p'.sz = p.sz ∧
      getPrm cv i 20 p' = .ok (num (off + 1600)) ∧ getPrm cv i 21 p' = .ok (num (off + 2400)) ∧
      ∀ (T : Type) (cv' : Conv F T) (i' m' : Nat), i' < p.sz → Rules.abs p.rule m' ≠ none →
        ¬ (i' = i ∧ (m' = 20 ∨ m' = 21)) → getPrm cv' i' m' p' = getPrm cv' i' m' p := by
  obtain ⟨e1, m1, k1, -⟩ := dr_float 0 (by omega)
  obtain ⟨e2, m2, k2, -⟩ := dr_float 1 (by omega)
  have a1 : Rules.abs p.rule 20 = some (entryVal e1) := by rw [hr]; exact abs_mem dr_reach.inv m1
  have a2 : Rules.abs p.rule 21 = some (entryVal e2) := by rw [hr]; exact abs_mem dr_reach.inv m2
  obtain ⟨q, b1, b2, b3, b4, b5, b6⟩ := C11_set_get cv p hp i 20 (num (off + 1600)) _ hi a1
  obtain ⟨q', c1, c2, c3, c4, c5, c6⟩ := C11_set_get cv q b2 i 21 (num (off + 2400)) _ (by rw [b4]; exact hi)
    (by rw [b3]; exact a2)
  have v1 : viaSlot cv (entryVal e1).1 (num (off + 1600)) = num (off + 1600) := by
    show viaSlot cv e1.kind _ = _; rw [k1]; exact hF _
  have v2 : viaSlot cv (entryVal e2).1 (num (off + 2400)) = num (off + 2400) := by
    show viaSlot cv e2.kind _ = _; rw [k2]; exact hF _
  rw [v1] at b5
  rw [v2] at c5
  refine ⟨q', by unfold moveSource; rw [b1, Res.ok_bind, c1], c2, by rw [c3, b3, hr], by rw [c4, b4], ?_, c5, ?_⟩
  · rw [c6 _ cv i 20 (by rw [b4]; exact hi) (by rw [b3, a1]; simp) (by omega), b5]
  · intro T cv' i' m' hi' hm' hne
    rw [c6 T cv' i' m' (by rw [b4]; exact hi') (by rw [b3]; exact hm') (by omega), b6 T cv' i' m' hi' hm' (by omega)]

/-- **C80**: what the modification of the parameters of a call for `n` traces from `off` does: every trace of the call gets
the source of its first trace, so the output depends on how the traces are dealt out; nothing else changes. -/
theorem C80_sources (cv : Conv F F) (num : Nat → F) (hF : ∀ v, cv.ofF (cv.toF v) = v) (off n : Nat) : ∀ (i : Nat) (p : Param F),
    WF p → p.rule = dr → i + n ≤ p.sz →
    ∃ p', modParams cv num off p i n = .ok p' ∧ WF p' ∧ p'.rule = dr ∧ p'.sz = p.sz ∧
      (∀ j, i ≤ j → j < i + n → getPrm cv j 20 p' = .ok (num (off + 1600)) ∧ getPrm cv j 21 p' = .ok (num (off + 2400))) ∧
      ∀ (T : Type) (cv' : Conv F T) (j m' : Nat), j < p.sz → Rules.abs p.rule m' ≠ none →
        ¬ ((i ≤ j ∧ j < i + n) ∧ (m' = 20 ∨ m' = 21)) → getPrm cv' j m' p' = getPrm cv' j m' p := by
  obtain ⟨e1, m1, k1, -⟩ := dr_float 0 (by omega)
  obtain ⟨e2, m2, k2, -⟩ := dr_float 1 (by omega)
  have a1 : Rules.abs dr 20 ≠ none := by rw [abs_mem dr_reach.inv m1]; simp
  have a2 : Rules.abs dr 21 ≠ none := by rw [abs_mem dr_reach.inv m2]; simp
  induction n with
  | zero =>
    intro i p hp hr _
    exact ⟨p, rfl, hp, hr, rfl, fun j _ _ => by omega, fun _ _ _ _ _ _ _ => rfl⟩
  | succ n ih =>
    intro i p hp hr hi
    obtain ⟨q, b1, b2, b3, b4, b5, b6, b7⟩ := moveSource_spec cv num hF off i p hp hr (by omega)
    obtain ⟨q', c1, c2, c3, c4, c5, c6⟩ := ih (i + 1) q b2 b3 (by omega)
    refine ⟨q', by unfold modParams; rw [b1, Res.ok_bind, c1], c2, c3, by rw [c4, b4], ?_, ?_⟩
    · intro j h1 h2
      by_cases hj : j = i
      · subst hj
        rw [c6 F cv j 20 (by omega) (by rw [b3]; exact a1) (by omega),
          c6 F cv j 21 (by omega) (by rw [b3]; exact a2) (by omega)]
        exact ⟨b5, b6⟩
      · exact c5 j (by omega) (by omega)
    · intro T cv' j m' hj hm' hne
      rw [c6 T cv' j m' (by omega) (by rw [b3, ← hr]; exact hm') (by omega), b7 T cv' j m' hj hm' (by omega)]

/-! ### Cases -/

/-- A file of `n` traces of two samples with interval `0x07d0` µs: a text of `w`, records of `v`. -/
def exCopy (n : Nat) (v : Byte) (w : Nat) : Disk :=
  ⟨plainSz n 2, fun x => if x = 3221 then 2#8 else if x = 3216 then 0x07#8
    else if x = 3217 then 0xd0#8 else if x = 3225 then 5#8 else if x < 3200 then BitVec.ofNat 8 w else if x < 3600 then 0#8 else v⟩

theorem exCopy_open {n : Nat} (v : Byte) {w : Nat} (hw : w < 256) (hn : plainSz n 2 < 2 ^ 63) :
    openRead (exCopy n v w) = .ok ⟨2, n, exInc false, 5#16, CharEnc.readText (List.replicate 3200 w)⟩ := by
  obtain ⟨ty, h1, h2⟩ := openRead_spec (exCopy n v w) 2 n 2000 (List.replicate 3200 w) (by omega) rfl hn
    (by show fromBE16 0#8 2#8 = _; decide)
    (by show fromBE16 0x07#8 0xd0#8 = _; decide)
    List.length_replicate (fun x hx => by rw [List.eq_of_mem_replicate hx]; exact hw)
    (fun i hi => by
      rw [List.getElem?_replicate_of_lt hi]
      show (if i = 3221 then 2#8 else if i = 3216 then 0x07#8
        else if i = 3217 then 0xd0#8 else if i = 3225 then 5#8 else if i < 3200 then BitVec.ofNat 8 w
        else if i < 3600 then 0#8 else v) = _
      rw [if_neg (by omega), if_neg (by omega), if_neg (by omega), if_neg (by omega), if_pos (by omega)]
      rfl)
  have : ty = 5#16 := by rw [h2]; show fromBE16 0#8 5#8 = _; decide
  rw [h1, this]; rfl

/-- Double precision numbers. -/
def exNum : Num ℚ :=
  ⟨dbl, ⟨fun v => v.toInt, id, BitVec.setWidth 16, id, fun _ => 0#64, id, BitVec.signExtend 64, id, 0⟩,
    ⟨id, fun _ => 0#64, fun _ => 0#16, fun _ => 0#64, id, fun v => v.toInt, fun v => v.toInt, fun v => v.toInt, 0⟩, 0, fun k _ => BitVec.ofNat 32 k,
    fun n => n⟩

/-- The hypotheses of `C80_copy_partial` and `C80_header_refuted`: seven traces on two processes, two a call, in reverse
order. -/
example : ∃ out' : Disk, readWriteFile exNum (fun _ => 9#8) List.reverse 2 700 ⟨false, false⟩ (exCopy 7 6#8 0x20)
      ⟨0, fun _ => 0#8⟩ = .ok out' ∧ be32 out' 2 6 37 = 0x06060606#32 ∧ recByte out' 2 6 247 = 6#8 ∧
    recByte out' 2 6 8 ≠ recByte (exCopy 7 6#8 0x20) 2 6 8 := by
  have ho := exCopy_open (n := 7) 6#8 (w := 0x20) (by omega) (by decide)
  obtain ⟨o, h1, -, -, h2⟩ := C80_copy_partial exNum rfl (fun _ => rfl) (fun _ => 9#8) List.reverse
    (fun l => List.reverse_perm l) 2 (by omega) 700 _ _ ho (by decide) (by simp) (by simp) exInc_pos (by decide) (by simp)
    (by decide) ⟨0, fun _ => 0#8⟩
  obtain ⟨o', h1', h3⟩ := C80_header_refuted exNum rfl (fun _ => rfl) (fun _ => 9#8) List.reverse
    (fun l => List.reverse_perm l) 2 (by omega) 700 _ _ ho (by decide) (by simp) (by simp) exInc_pos (by decide) (by simp)
    (by decide) 6 (by simp) (by decide) ⟨0, fun _ => 0#8⟩
  rw [h1, Res.ok.injEq] at h1'
  subst h1'
  refine ⟨o, h1, ?_, ?_, h3⟩
  · rw [(h2 6 (by simp)).numbers 37 (by simp)]; decide
  · rw [(h2 6 (by simp)).samples 247 (by omega) (by simp)]; decide

theorem readText_blank {k : Nat} (hk : 0 < k) : CharEnc.readText (List.replicate k 0x20) = List.replicate k 0x20 := by
  unfold CharEnc.readText
  rw [List.countP_replicate, List.countP_replicate, if_pos]
  rw [(by decide : CharEnc.printableASCII 0x20 = true), (by decide +kernel : CharEnc.printableEBCDIC 0x20 = false)]
  simp; omega

/-- The hypotheses of `C80_text_partial`: a text of blanks. -/
example : ∃ i, openRead (exCopy 3 6#8 0x20) = .ok i ∧ CharEnc.readText (shown (cstr i.text)) = i.text := by
  have ho := exCopy_open (n := 3) 6#8 (w := 0x20) (by omega) (by decide)
  rw [readText_blank (by omega)] at ho
  obtain ⟨t, ht⟩ : ∃ t : List Nat, t = List.replicate 3200 0x20 := ⟨_, rfl⟩
  have hm : ∀ c, c ∈ t ↔ c = 0x20 := by
    intro c; rw [ht, List.mem_replicate]; exact ⟨fun h => h.2, fun h => ⟨by omega, h⟩⟩
  rw [← ht] at ho
  clear ht
  refine ⟨_, ho, C80_text_partial _ _ ho (by simp) ?_ ?_⟩
  · intro c hc
    rw [(hm c).1 hc]; omega
  · exact ⟨0x20, (hm _).2 rfl, by omega⟩

/-- The hypotheses of `C80_rounds_refuted`: five traces on two processes, two a call; two traces on three processes. -/
example (out : Disk) : readWriteFile exNum (fun _ => 9#8) List.reverse 2 700 ⟨false, false⟩ (exCopy 5 6#8 0x20) out = .abort :=
  C80_rounds_refuted exNum (fun _ => rfl) convertible (fun _ => 9#8) List.reverse
    (fun l => List.reverse_perm l) 2 (by omega) 700 _ _ (exCopy_open (n := 5) 6#8 (w := 0x20) (by omega) (by decide))
    (by decide) (by simp) (by simp) exInc_pos (by decide) (by simp) (by decide) (by decide) out
example (out : Disk) : readWriteFile exNum (fun _ => 9#8) id 3 100000 ⟨false, false⟩ (exCopy 2 6#8 0x20) out = .abort :=
  C80_rounds_refuted exNum (fun _ => rfl) convertible (fun _ => 9#8) id
    (fun _ => List.Perm.refl _) 3 (by omega) 100000 _ _ (exCopy_open (n := 2) 6#8 (w := 0x20) (by omega) (by decide))
    (by decide) (by simp) (by simp) exInc_pos (by decide) (by simp) (by decide) (by decide) out

/-- The hypotheses of `C80_memory_refuted`. -/
example (out : Disk) : readWriteFile exNum (fun _ => 9#8) id 3 239 ⟨false, false⟩ (exCopy 9 6#8 0x20) out = .ub :=
  C80_memory_refuted exNum (fun _ => 9#8) id 3 (by omega) 239 _ _ _
    (exCopy_open (n := 9) 6#8 (w := 0x20) (by omega) (by decide)) (by decide) (by simp) (by simp) exInc_pos (by simp) out

/-- The hypotheses of `C80_interval_refuted`. -/
example (out : Disk) : readWriteFile exNum (fun _ => 9#8) id 3 1000 ⟨false, false⟩ (exFile true 9 7#8) out = .abort := by
  obtain ⟨t, ho⟩ := exFile_open true (n := 9) 7#8 (by decide)
  exact C80_interval_refuted exNum (fun _ => 9#8) id 3 1000 _ _ _ ho exInc_zero out

/-- The hypotheses of `C80_flags_refuted`: `-i a -m 10 -t`. -/
example (files : String → Disk) : creadwrite exNum (fun _ => 9#8) id 3 (fun _ => some 10) files
    [('i', some "a"), ('m', some "10"), ('t', none)] = .ub :=
  C80_flags_refuted exNum (fun _ => 9#8) id 3 (fun _ => some 10) files [('i', some "a"), ('m', some "10")] [] 't'
    (by simp)

/-- The hypotheses of `C80_main_partial`. -/
example : ∃ out' : Disk, creadwrite exNum (fun _ => 9#8) List.reverse 3 (fun _ => none) (fun _ => exCopy 9 6#8 0x20)
    [('i', some "a"), ('o', some "b")] = .ok (some ("b", out')) ∧ be32 out' 2 6 37 = 0x06060606#32 := by
  obtain ⟨o, h1, -, h2⟩ := C80_main_partial exNum rfl (fun _ => rfl) (fun _ => 9#8) List.reverse
    (fun l => List.reverse_perm l) 3 (by omega) (fun _ => none) (fun _ => exCopy 9 6#8 0x20) "a" "b" _
    (exCopy_open (n := 9) 6#8 (w := 0x20) (by omega) (by decide)) (by decide) (by simp) (by simp) exInc_pos (by decide)
    (.inl (by decide))
  refine ⟨o, h1, ?_⟩
  rw [(h2 6 (by simp)).numbers 37 (by simp)]; decide

/-- The hypotheses of `C80_nul_refuted`: a text of NULs. -/
example : ∃ (out' : Disk) (i' : Info), readWriteFile exNum (fun _ => 9#8) List.reverse 2 700 ⟨false, false⟩ (exCopy 7 6#8 0)
      ⟨0, fun _ => 0#8⟩ = .ok out' ∧ openRead out' = .ok i' ∧ i'.text = List.replicate 3200 0 := by
  have ho := exCopy_open (n := 7) 6#8 (w := 0) (by omega) (by decide)
  rw [readText_replicate (by decide), (by decide +kernel : CharEnc.toASCII 0 = 0)] at ho
  have ht : (List.replicate 3200 0)[0]? = some 0 := List.getElem?_replicate_of_lt (by omega)
  have key : ∀ t : List Nat, openRead (exCopy 7 6#8 0) = .ok ⟨2, 7, exInc false, 5#16, t⟩ → t[0]? = some 0 →
      ∃ (out' : Disk) (i' : Info), readWriteFile exNum (fun _ => 9#8) List.reverse 2 700 ⟨false, false⟩ (exCopy 7 6#8 0)
        ⟨0, fun _ => 0#8⟩ = .ok out' ∧ openRead out' = .ok i' ∧ i'.text = List.replicate 3200 0 := fun t ho ht =>
    C80_nul_refuted exNum rfl (fun _ => rfl) (fun _ => 9#8) List.reverse
      (fun l => List.reverse_perm l) 2 (by omega) 700 _ _ ho
      (by decide) (by simp) (by simp) exInc_pos (by simp) (by simp) (by simp) ht _
  exact key _ ho ht

/-- The hypotheses of `C80_linear_refuted`: the last sample of three traces stays 0x06060606. -/
example : ∃ out' : Disk, readWriteFile exNum (fun _ => 9#8) List.reverse 1 720 ⟨true, false⟩ (exCopy 3 6#8 0x20)
      ⟨0, fun _ => 0#8⟩ = .ok out' ∧ dsamp out' 2 2 1 = 0x06060606#32 := by
  have ho := exCopy_open (n := 3) 6#8 (w := 0x20) (by omega) (by decide)
  obtain ⟨o, h1, h2⟩ := C80_linear_refuted exNum (fun _ => rfl) convertible (fun _ => 9#8) List.reverse
    (fun l => List.reverse_perm l) 720 _ _ ho (by decide) (by simp)
    (by simp) exInc_pos (by decide) (by simp) (by simp) ⟨0, fun _ => 0#8⟩
  refine ⟨o, h1, Eq.trans h2 ?_⟩
  show dsamp (exCopy 3 6#8 0x20) 2 2 1 = _
  decide

/-- The hypotheses of `C80_sources`: a call for three traces from the fifth. -/
example : ∃ p' : Param ℚ, modParams exNum.toF exNum.num 4 (Params.mk 0 dr 3) 0 3 = .ok p' ∧
    getPrm exNum.toF 2 20 p' = .ok 1604 := by
  obtain ⟨p', h1, -, -, -, h2, -⟩ := C80_sources exNum.toF exNum.num (fun _ => rfl) 4 3 0 (Params.mk 0 dr 3) (mk_wf 0 dr_reach.inv 3) rfl
    (by decide)
  refine ⟨p', h1, ?_⟩
  rw [(h2 2 (by omega) (by omega)).1]
  norm_num [exNum]

end Verif.CCopy
