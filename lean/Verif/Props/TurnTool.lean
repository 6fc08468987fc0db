import Verif.Util.TurnTool
import Verif.Props.CreateTool
/-!
# C84: copying a file in one call per process

`examples/example2.c` gives the number of traces as the number of samples and the other way around.
-/
namespace Verif.CTurn
open Verif.Rules Verif.Params Verif.Files Verif.Layout Verif.Endian Verif.FP Verif.Scalar Verif.Flow Verif.Extremes
open Verif.CCopy Verif.CCreate

/-! ## One share -/

/-- The header of trace `k` of a file with `ns` samples is in the output, with `ns'` samples, as the default rule has it. -/
structure Kept (ns ns' : Nat) (d : Disk) (k : Nat) (o : Disk) : Prop where
  numbers : ∀ loc ∈ [5, 37, 189, 193], be32 o ns' k loc = be32 d ns k loc
  coords : Usable (be16 d ns k 71) → Accepted (be16 o ns' k 71) ∧ ∀ loc ∈ place,
    unit (be16 o ns' k 71) * (be32 o ns' k loc).toInt = unit (be16 d ns k 71) * (be32 d ns k loc).toInt
  rest : ∀ x, x < 240 → (∀ loc ∈ [5, 37, 189, 193] ++ place, ¬ (loc ≤ x + 1 ∧ x + 1 < loc + 4)) → ¬ (71 ≤ x + 1 ∧ x + 1 < 73) →
    recByte o ns' k x = 0#8

/-- The same with the parameters in between. -/
def Through (ns ns' : Nat) (d : Disk) (k : Nat) (o : Disk) : Prop :=
  ∃ (p : Param ℚ) (row : Nat), p.rule = dr ∧ (WF p ∧ row < p.sz) ∧ Decoded dbl (dhdr d ns k) row 0 p dr.map ∧
    Header (fsOf dbl) (enOf dbl) p row (dhdr o ns' k)

theorem Through.congr {ns ns' k : Nat} {d o o' : Disk} (h : Through ns ns' d k o)
    (he : ∀ x, taddr ns' k ≤ x ∧ x < taddr ns' k + (240 + 4 * ns') → o'.byte x = o.byte x) : Through ns ns' d k o' := by
  obtain ⟨p, row, h1, h2, h4, h3⟩ := h
  refine ⟨p, row, h1, h2, h4, Header.congr (by rw [h1]; exact dr_rule.layout) h3 fun x hx => he _ ⟨?_, ?_⟩⟩ <;> (unfold taddr; omega)

theorem Through.kept {ns ns' k : Nat} {d o : Disk} (h : Through ns ns' d k o) : Kept ns ns' d k o := by
  obtain ⟨p, row, hr, -, hdec, hh⟩ := h
  have hcoord : ∀ loc ∈ place, Usable (be16 d ns k 71) → Accepted (be16 o ns' k 71) ∧
      unit (be16 o ns' k 71) * (be32 o ns' k loc).toInt = unit (be16 d ns k 71) * (be32 d ns k loc).toInt := by
    intro loc hl hu
    obtain ⟨q, hq, e, he, hk, h1, h2⟩ := dr_coords loc hl
    have hm : (q.1, some e) ∈ p.rule.map := by rw [hr, ← he]; exact hq
    have := again_coords (fs := fsOf dbl) (en := enOf dbl) (fun v s h => by
      show okOr 1#16 (findScalar v) = s; rw [h]; rfl)
      (fun v s n h => by show okOr 0#32 (encode v s) = n; rw [h]; rfl) (by rw [hr]; exact hdec) hh.items hm hk (by
        rw [Nat.zero_add, h2]
        exact hu)
    rw [Nat.zero_add, Nat.zero_add, h1, h2] at this
    exact ⟨this.1, this.2.1⟩
  refine ⟨?_, fun hu => ⟨(hcoord 73 (by decide) hu).1, fun loc hl => (hcoord loc hl hu).2⟩, ?_⟩
  · intro loc hl
    obtain ⟨q, hq, e, he, hk, rfl⟩ := dr_numbers loc hl
    have hm : (q.1, some e) ∈ dr.map := by rw [← he]; exact hq
    have g1 := (hdec q.1 e hm).2.1 hk
    have g2 := (hh.items q.1 e (by rw [hr]; exact hm)).2.1 hk
    rw [g1, Nat.zero_add, narrow32] at g2
    exact g2
  · intro x hx hl hs
    have h1 := hh.rest x hx (by
      rintro ⟨m, e, he, hcase⟩
      rw [hr] at he
      obtain ⟨e', e1, hk⟩ := dr_entries _ he
      cases e1
      rcases hk with hk | ⟨hk, hm⟩ | ⟨hk, hm, hsc⟩
      · rcases hcase with ⟨hv, -⟩ | ⟨hv, -⟩
        · rcases hv with hv | hv | hv <;> rw [hk] at hv <;> cases hv
        · rw [hk] at hv; cases hv
      · rcases hcase with ⟨-, a, b⟩ | ⟨hv, -⟩
        · rw [hk] at b
          simp only [width] at b
          exact hl _ (List.mem_append.2 (Or.inl hm)) (by omega)
        · rw [hk] at hv; cases hv
      · rcases hcase with ⟨-, a, b⟩ | ⟨-, a, b⟩
        · rw [hk] at b
          simp only [width] at b
          exact hl _ (List.mem_append.2 (Or.inr hm)) (by omega)
        · rw [hsc] at a b
          exact hs (by omega))
    rw [hr, dr_copy, if_neg (by simp)] at h1
    exact h1

/-- What a share from trace `off` leaves in trace `off + j` of a file with `wns` samples: the header of that trace, and the
samples counted on from the start of the share. -/
structure Turned (ns wns : Nat) (d : Disk) (off j : Nat) (o : Disk) : Prop where
  header : Through ns wns d (off + j) o
  samples : ∀ s, s < wns → dsamp o wns (off + j) s = dsamp d ns (off + (j * wns + s) / ns) ((j * wns + s) % ns)

theorem Turned.congr {ns wns off j : Nat} {d o o' : Disk} (h : Turned ns wns d off j o)
    (he : ∀ x, taddr wns (off + j) ≤ x ∧ x < taddr wns (off + j) + (240 + 4 * wns) → o'.byte x = o.byte x) :
    Turned ns wns d off j o' :=
  ⟨h.header.congr he, fun s hs => by
    rw [dsamp_congr hs fun x hx => he x ⟨by omega, hx.2⟩]
    exact h.samples s hs⟩

/-- Reading a share. -/
theorem read_share (i : Info) (d : Disk) (hf : FileOk i d) (junk : Nat → Byte) {off n : Nat} (hle : off + n ≤ i.nt) :
    ∃ t p, cReadTrace dbl iconv i d off n (some ⟨4 * (n * i.ns), junk⟩) (some (Params.mk 0 dr n)) = .ok (some t, some p) ∧
      t.len = 4 * (n * i.ns) ∧ (∀ j s, j < n → s < i.ns → sample t (j * i.ns + s) = dsamp d i.ns (off + j) s) ∧
      WF p ∧ p.rule = dr ∧ p.sz = n ∧ (∀ j, j < n → Decoded dbl (dhdr d i.ns (off + j)) j 0 p dr.map) ∧
      PrmOk dbl p := by
  have hbytes := sample_bytes hf.size (show n ≤ i.nt by omega)
  have hnt := nt_lt hf.size
  have hcl : clamp i.nt off n = n := by rw [clamp_eq (by omega) (by omega) (by omega)]; omega
  obtain ⟨hsm, hinc, htr⟩ := small_of hf.size hle
  obtain ⟨t', p', r1, -, -, r2, r3⟩ := read_spec dbl iconv (fun _ => rfl) i.ns (.start off) n (some ⟨4 * (n * i.ns), junk⟩)
    (some (Params.mk 0 dr n)) 0 d i.nt hsm (fun a b h1 h2 => Nat.le_of_lt (hinc a b h1 h2))
    (fun a ha => Nat.le_trans (taddr_le (hsm.lt a ha)) hf.disk)
    (by
      rintro t h; cases h
      exact ⟨by show 4 * (i.ns * n) ≤ 4 * (n * i.ns); rw [Nat.mul_comm i.ns], hbytes⟩)
    (by rintro p h; cases h; exact ⟨dr_rule.rd 0 n, Nat.le_refl _⟩) (by simp)
  obtain ⟨t, rfl, hsamp⟩ := r2 _ rfl
  obtain ⟨p, rfl, hrows⟩ := r3 _ rfl
  have hpr : p.rule = dr := hrows.rule
  have hpz : p.sz = n := hrows.size
  have hdec : ∀ j, j < n → Decoded dbl (dhdr d i.ns (off + j)) j 0 p dr.map := by
    intro j hj
    have := hrows.dec j hj
    rwa [htr j hj, Nat.add_zero] at this
  have hfloat : ∀ x, x < p.f.len → ∃ s v, p.f.val x = decode s v := by
    intro x hx
    rw [hrows.wf.f, hpr, hpz] at hx
    have hpos : 0 < dr.cnt .float := by
      rcases Nat.eq_zero_or_pos (dr.cnt .float) with h | h
      · rw [h] at hx; omega
      · exact h
    obtain ⟨m, e, hm, hk, hnum⟩ := slot_of dr_rule.inv .float (Nat.mod_lt x hpos)
    have hj : x / dr.cnt .float < n := by rw [Nat.div_lt_iff_lt_mul hpos]; exact hx
    have := (hdec _ hj m e hm).2.2 hk
    rw [hpr, hnum, Nat.div_add_mod'] at this
    exact ⟨_, _, this⟩
  refine ⟨t, p, ?_, hsamp.len, fun j s hj hs => ?_, hrows.wf, hpr, hpz, hdec, ?_⟩
  · unfold cReadTrace readTrace
    simp only [decide_eq_false hf.format, hcl]
    exact r1
  · rw [hsamp.samples j s hj hs, htr j hj]
  · refine ⟨hrows.wf, by rw [hpr]; exact dr_rule.layout, by rw [hpr]; exact dr_rule.full, by rw [hpr]; exact dr_rule.start,
      fun x hx => ?_, fun x hx s' => ?_⟩
    · obtain ⟨s, v, he⟩ := hfloat x hx
      rw [he]; exact (convertible s v).1
    · obtain ⟨s, v, he⟩ := hfloat x hx
      rw [he]; exact (convertible s v).2 s'

theorem memory_some {null0 : Bool} {junk : Nat → Byte} {len : Nat} (h : null0 = false ∨ 0 < len) :
    memory null0 junk len = some ⟨len, junk⟩ := by
  unfold memory
  rw [if_neg]
  rintro ⟨a, b⟩
  rcases h with h | h
  · rw [h] at b; cases b
  · omega

theorem turnBlock_spec (null0 : Bool) (junk : Nat → Byte) (i : Info) (d : Disk) (hf : FileOk i d) {wns : Nat}
    (c : Decomp.Dec) (hw : wns ≤ i.ns ∨ c.localSize = 0) (hsz : taddr wns i.nt < 2 ^ 63) (hle : c.globalOffset + c.localSize ≤ i.nt) (hnull : null0 = false ∨ 0 < c.localSize)
    (o : Disk) :
    ∃ o', turnBlock null0 junk i wns d c o = .ok o' ∧
      (∀ j, j < c.localSize → Turned i.ns wns d c.globalOffset j o') ∧
      ∀ x, (∀ j, j < c.localSize → ¬ (taddr wns (c.globalOffset + j) ≤ x ∧
        x < taddr wns (c.globalOffset + j) + (240 + 4 * wns))) → o'.byte x = o.byte x := by
  obtain ⟨off, n⟩ := c
  dsimp only at hw hle hnull ⊢
  obtain ⟨t, p, r1, r2, r3, r4, r5, r6, r7, r8⟩ := read_share i d hf junk hle
  have hbytes := sample_bytes hf.size (show n ≤ i.nt by omega)
  have hlen := call_bytes hf (show n ≤ i.nt by omega)
  have hmul : wns * n ≤ n * i.ns := by
    rw [Nat.mul_comm wns]
    rcases hw with hw | hw
    · exact Nat.mul_le_mul_left _ hw
    · rw [hw, Nat.zero_mul, Nat.zero_mul]
  obtain ⟨hsm, hinc, htr⟩ := small_of hsz hle
  obtain ⟨o', w1, w5, w6, w3, -, -, -⟩ := write_spec dbl wns (.start off) n (some t) (some p) 0 o i.nt hsm hinc
    (by rintro q h; cases h; rw [r2]; exact ⟨by omega, hbytes⟩) (by rintro q h; cases h; exact ⟨r8, by omega⟩) (by simp)
  refine ⟨o', ?_, ?_, ?_⟩
  · unfold turnBlock
    rw [ctor_default, Res.ok_bind]
    dsimp only
    rw [hlen, memory_some (hnull.imp_right fun h => by have := Nat.mul_pos h hf.ns0; omega), r1, Res.ok_bind]
    unfold cWriteTrace
    dsimp only
    rw [w1, Res.ok_bind]
  · intro j hj
    refine ⟨⟨p, j, r5, ⟨r4, by omega⟩, r7 j hj, ?_⟩, fun s hs => ?_⟩
    · have := w6 p rfl j hj
      rwa [htr j hj] at this
    · have := w5 t rfl j s hj hs
      rw [htr j hj] at this
      rw [this, ← r3 _ _ ?_ (Nat.mod_lt _ hf.ns0), Nat.div_add_mod']
      rw [Nat.div_lt_iff_lt_mul hf.ns0]
      have h1 : j * wns + wns ≤ n * wns := by
        rw [← Nat.succ_mul]; exact Nat.mul_le_mul_right _ hj
      have h2 : n * wns ≤ n * i.ns := Nat.mul_le_mul_left _ (by omega)
      omega
  · intro x hx
    refine w3 x fun j hj => ?_
    have := hx j hj
    rw [htr j hj]
    exact ⟨fun _ => by omega, fun _ => by omega⟩

theorem narrower {ns wns nt : Nat} (hw : wns ≤ ns) (h : taddr ns nt < 2 ^ 63) : taddr wns nt < 2 ^ 63 := by
  have : nt * (240 + 4 * wns) ≤ nt * (240 + 4 * ns) := Nat.mul_le_mul_left _ (by omega)
  unfold taddr at h ⊢
  omega

/-- Memory too small for what is to be written. -/
theorem toFile_short (n : Nat) : ∀ (i L : Nat) (m : Arr Byte), m.len = 4 * L → L < i + n → i ≤ L → m.len ≤ 2 ^ 64 →
    toFile m i n = .ub := by
  induction n with
  | zero => intro i L m _ h h' _; omega
  | succ n ih =>
    intro i L m he h h' hl
    by_cases hi : i < L
    · obtain ⟨m1, a1, a2⟩ := swap_step (m := m) (i := i) (by omega) hl
      unfold toFile loadF
      rw [bytes4_ok (by omega), Res.ok_bind, Res.ok_bind]
      rw [C03_encode_unsigned 4, C03_roundtrip32_bytes, a1, Res.ok_bind]
      exact ih (i + 1) L m1 (by rw [a2.len]; exact he) (by omega) hi (by rw [a2.len]; exact hl)
    · unfold toFile loadF bytes4 Arr.get
      rw [if_neg (by omega)]
      rfl

theorem turnBlock_ub (null0 : Bool) (junk : Nat → Byte) (i : Info) (d : Disk) (hf : FileOk i d) {wns : Nat}
    (hw : i.ns < wns) (hw1 : wns ≤ 32767) (hnt : i.nt ≤ 32767) (c : Decomp.Dec) (hle : c.globalOffset + c.localSize ≤ i.nt) (hpos : 0 < c.localSize)
    (o : Disk) : turnBlock null0 junk i wns d c o = .ub := by
  obtain ⟨off, n⟩ := c
  dsimp only at hle hpos ⊢
  obtain ⟨t, p, r1, r2, -⟩ := read_share i d hf junk hle
  have hbytes := sample_bytes hf.size (show n ≤ i.nt by omega)
  have hlen := call_bytes hf (show n ≤ i.nt by omega)
  have hm : n * i.ns < wns * n := by rw [Nat.mul_comm wns]; exact Nat.mul_lt_mul_of_pos_left hw hpos
  have hb : wns * n < 2 ^ 64 := by
    have h1 : wns * n ≤ 32767 * 32767 := Nat.mul_le_mul hw1 (by omega)
    omega
  unfold turnBlock
  rw [ctor_default, Res.ok_bind]
  dsimp only
  rw [hlen, memory_some (Or.inr (by have := Nat.mul_pos hpos hf.ns0; omega)), r1, Res.ok_bind]
  unfold cWriteTrace writeTraceT onTrace
  dsimp only
  rw [mul64_eq hb, toFile_short _ 0 (n * i.ns) t r2 (by omega) (by omega) (by omega)]
  rfl

/-! ## All shares -/

/-- Every process has memory, if `malloc` gives some for no bytes or every process has a trace. -/
theorem shares_pos {nt P : Nat} {null0 : Bool} (hP : 0 < P) (h : null0 = false ∨ P ≤ nt) :
    ∀ c ∈ decs nt P, null0 = false ∨ 0 < c.localSize := by
  intro c hc
  refine h.imp_right fun hle => ?_
  obtain ⟨r, -, rfl⟩ := List.mem_map.1 hc
  have : 0 < nt / P := Nat.div_pos hle hP
  unfold Decomp.sz
  dsimp only; omega

theorem run_turned (null0 : Bool) (junk : Nat → Byte) (i : Info) (d : Disk) (hf : FileOk i d) {wns P : Nat} (hw : wns ≤ i.ns)
    (hP : 0 < P) (hnull : null0 = false ∨ P ≤ i.nt) {l : List Decomp.Dec} (hl : l.Perm (decs i.nt P)) (o : Disk) :
    ∃ o', runBlocks (turnBlock null0 junk i wns d) l o = .ok o' ∧
      (∀ c ∈ decs i.nt P, ∀ j, j < c.localSize → Turned i.ns wns d c.globalOffset j o') ∧
      ∀ x, (x < 3600 ∨ 3600 + i.nt * (240 + 4 * wns) ≤ x) → o'.byte x = o.byte x := by
  obtain ⟨o', e1, e2, e3⟩ := run_disjoint (turnBlock null0 junk i wns d)
    (fun c x => ∃ j, j < c.localSize ∧ taddr wns (c.globalOffset + j) ≤ x ∧
      x < taddr wns (c.globalOffset + j) + (240 + 4 * wns))
    (fun c o => ∀ j, j < c.localSize → Turned i.ns wns d c.globalOffset j o) l
    (fun c hc o => by
      have hc := hl.mem_iff.1 hc
      obtain ⟨o', g1, g2, g3⟩ := turnBlock_spec null0 junk i d hf c (Or.inl hw) (narrower hw hf.size) (decs_le hP c hc) (shares_pos hP hnull c hc) o
      exact ⟨o', g1, g2, fun x hx => g3 x fun j hj hc => hx ⟨j, hj, hc⟩⟩)
    (fun c _ o o' hq he j hj => (hq j hj).congr fun x hx => he x ⟨j, hj, hx⟩)
    (by
      rw [hl.pairwise_iff (by rintro a b h x hb ha; exact h x ha hb)]
      refine (decs_pairwise i.nt P).imp ?_
      rintro a b hab x ⟨j, hj, hx⟩ ⟨j', hj', hx'⟩
      have := taddr_le (ns := wns) (show a.globalOffset + j < b.globalOffset + j' by omega)
      omega) o
  refine ⟨o', e1, fun c hc => e2 c (hl.mem_iff.2 hc), fun x hx => e3 x ?_⟩
  rintro c hc ⟨j, hj, h, h'⟩
  have h1 : 3600 ≤ taddr wns (c.globalOffset + j) := by unfold taddr; omega
  have h2 := taddr_le (ns := wns) (show c.globalOffset + j < i.nt by have := decs_le hP c (hl.mem_iff.1 hc); omega)
  have h3 : taddr wns i.nt = 3600 + i.nt * (240 + 4 * wns) := rfl
  omega

/-! ## Closing -/

theorem header_rest (i : Info) (w : W) : ((w.writeNt i.ns).writeText (cstr i.text)).ns = w.ns ∧
    ((w.writeNt i.ns).writeText (cstr i.text)).nsSet = w.nsSet ∧
    ((w.writeNt i.ns).writeText (cstr i.text)).err = w.err := by
  unfold W.writeNt W.writeText
  split <;> split <;> exact ⟨rfl, rfl, rfl⟩

theorem header_inc (i : Info) (w : W) : (w.writeInc i.inc).ns = w.ns ∧ (w.writeInc i.inc).nsSet = w.nsSet ∧
    ((w.writeInc i.inc).err = true ↔ w.err = true ∨ |i.inc| < 2 ^ (-1022 : ℤ)) := by
  unfold W.writeInc
  split
  · rename_i h; exact ⟨rfl, rfl, fun _ => Or.inr h, fun _ => rfl⟩
  · rename_i h
    split <;> exact ⟨rfl, rfl, Or.inl, fun hc => hc.resolve_right h⟩

theorem header_fits {i : Info} (h : i.nt ≤ 32767) : (headerCalls i).ns = i.nt ∧ (headerCalls i).nsSet = true ∧
    ((headerCalls i).err = true ↔ |i.inc| < 2 ^ (-1022 : ℤ)) := by
  have hn : (W.new.writeNs i.nt).ns = i.nt ∧ (W.new.writeNs i.nt).nsSet = true ∧ (W.new.writeNs i.nt).err = false := by
    unfold W.writeNs
    rw [if_neg (by omega)]
    split
    · exact ⟨rfl, rfl, rfl⟩
    · rename_i h
      exact ⟨not_not.1 h, rfl, rfl⟩
  obtain ⟨a1, a2, a3⟩ := header_rest i (W.new.writeNs i.nt)
  obtain ⟨b1, b2, b3⟩ := header_inc i (((W.new.writeNs i.nt).writeNt i.ns).writeText (cstr i.text))
  unfold headerCalls
  rw [b1, b2, b3, a1, a2, a3, hn.1, hn.2.1, hn.2.2]
  simp

theorem header_long {i : Info} (h : 32767 < i.nt) : (headerCalls i).ns = 0 ∧ (headerCalls i).err = true := by
  have hn : (W.new.writeNs i.nt).ns = 0 ∧ (W.new.writeNs i.nt).err = true := by
    unfold W.writeNs
    rw [if_pos (by omega)]
    exact ⟨rfl, rfl⟩
  obtain ⟨a1, a2, a3⟩ := header_rest i (W.new.writeNs i.nt)
  obtain ⟨b1, b2, b3⟩ := header_inc i (((W.new.writeNs i.nt).writeNt i.ns).writeText (cstr i.text))
  unfold headerCalls
  rw [b1, b3, a1, a3, hn.1, hn.2]
  simp

/-- With an error on all processes nothing is done at the end. -/
theorem close_err {nt P : Nat} (hP : 0 < P) {w : W} (h : w.err = true) (o : Disk) :
    close ((decs nt P).map fun c => w.writeTrace c.globalOffset c.localSize) o = .ok o := by
  unfold close
  rw [agree_const (a := true) (by unfold decs; simp; omega) (by
    intro x hx
    obtain ⟨w', hw, rfl⟩ := List.mem_map.1 hx
    obtain ⟨c, -, rfl⟩ := List.mem_map.1 hw
    show (w.err || _) = true
    rw [h]; rfl), Res.ok_bind, if_pos rfl]

/-- The calls of all processes as a history. -/
def history (i : Info) (P : Nat) : List Files.Step :=
  [.ns i.nt, .nt i.ns, .text (cstr i.text), .inc i.inc, .write fun r => (Decomp.off i.nt P r, Decomp.sz i.nt P r)]

theorem close_turned {i : Info} {P : Nat} (hP : 0 < P) (h0 : 0 < i.nt) (hle : i.nt ≤ i.ns) (h1 : i.ns ≤ 32767)
    (hinc : (2 : ℚ) ^ (-1022 : ℤ) ≤ |i.inc|) {m : ℤ} (hm0 : -2 ^ 63 ≤ m) (hm1 : m < 2 ^ 63)
    (hm : lround (rnd (i.inc / micro)) = m) (htext : ∀ x ∈ i.text, x < 256) (o : Disk) :
    ∃ o', close ((decs i.nt P).map fun c => (headerCalls i).writeTrace c.globalOffset c.localSize) o = .ok o' ∧
      o'.size = plainSz i.ns i.nt ∧ (∀ x, 3600 ≤ x → o'.byte x = o.byte x) ∧
      openRead o' = .ok ⟨i.nt, i.ns, rnd (micro * (BitVec.ofInt 16 m).toInt), 5#16, CharEnc.readText (shown (cstr i.text))⟩ := by
  have heq : ((decs i.nt P).map fun c => (headerCalls i).writeTrace c.globalOffset c.localSize) = runAllW P (history i P) := by
    unfold runAllW decs
    rw [List.map_map]
    exact List.map_congr_left fun r _ => rfl
  obtain ⟨a1, a2, a3⟩ := header_fits (show i.nt ≤ 32767 by omega)
  have hoff : ∀ r, r < P → Decomp.off i.nt P r + Decomp.sz i.nt P r ≤ i.nt := fun r hr => by
    have := Decomp.off_le i.nt P (r + 1) hP hr
    rwa [Decomp.off_succ] at this
  have hcount : IsCount P (history i P) i.ns := by
    refine Or.inl ⟨[.ns i.nt], [.text (cstr i.text), .inc i.inc,
      .write fun r => (Decomp.off i.nt P r, Decomp.sz i.nt P r)], rfl, rfl, fun r hr => ⟨?_, ?_, ?_⟩⟩
    · intro f hf
      simp only [List.mem_cons, reduceCtorEq, false_or, List.not_mem_nil, or_false] at hf
      cases hf
      exact (hoff r hr).trans hle
    all_goals
      intro f hf
      simp only [List.mem_cons, reduceCtorEq, List.not_mem_nil, or_false] at hf
  have hsz : taddr i.nt i.ns < 2 ^ 63 := by
    have : i.ns * (240 + 4 * i.nt) ≤ 32767 * (240 + 4 * 32767) := Nat.mul_le_mul h1 (by omega)
    unfold taddr
    omega
  rw [heq]
  have := close_stored P hP (history i P) o i.nt i.ns m ?_ rfl (by omega) hcount hsz hm0 hm1 hm (cstr_chr htext)
  · exact this
  · intro r hr
    show ((headerCalls i).err || !(headerCalls i).nsSet) = false
    rw [a2]
    simp only [Bool.not_true, Bool.or_false, ← Bool.not_eq_true, a3]
    exact not_lt.2 hinc

/-! ## The program -/

theorem run_example2 (null0 : Bool) (junk : Nat → Byte) (sched : List Decomp.Dec → List Decomp.Dec) {P : Nat} (hP : 0 < P)
    {d : Disk} {i : Info} (hopen : openRead d = .ok i) (hnt : i.nt < 2 ^ 63) (out : Disk) :
    example2 null0 junk sched P d out =
      (runBlocks (turnBlock null0 junk i (headerCalls i).ns d) (sched (decs i.nt P)) out >>= fun o =>
      close ((decs i.nt P).map fun c => (headerCalls i).writeTrace c.globalOffset c.localSize) o) := by
  unfold example2
  rw [hopen, Res.ok_bind, decs_eq hP (by omega), Res.ok_bind]

theorem turned_spec (null0 : Bool) (junk : Nat → Byte) (sched : List Decomp.Dec → List Decomp.Dec) (hs : ∀ l, (sched l).Perm l)
    {P : Nat} (hP : 0 < P) {d : Disk} {i : Info} (hopen : openRead d = .ok i) (hd : d.size < 2 ^ 63) (h0 : 0 < i.nt)
    (hle : i.nt ≤ i.ns) (h1 : i.ns ≤ 32767) (hinc : 0 < i.inc) (hfmt : i.format ≠ 1#16) (hnull : null0 = false ∨ P ≤ i.nt)
    (out : Disk) :
    ∃ out', example2 null0 junk sched P d out = .ok out' ∧
      openRead out' = .ok ⟨i.nt, i.ns, i.inc, 5#16, CharEnc.readText (shown (cstr i.text))⟩ ∧
      out'.size = 3600 + i.ns * (240 + 4 * i.nt) ∧
      (∀ c ∈ decs i.nt P, ∀ j, j < c.localSize → Turned i.ns i.nt d c.globalOffset j out') ∧
      ∀ k, i.nt ≤ k → ∀ x, recByte out' i.nt k x = recByte out i.nt k x := by
  have hf := fileOk hopen hd (by omega) h1 hfmt
  obtain ⟨-, iv, hiv⟩ := openRead_of hopen hd (by omega) h1
  obtain ⟨i1, i2, i3, i4⟩ := inc_again (iv := iv) (by rw [← hiv]; exact hinc)
  rw [← hiv] at i1 i2
  obtain ⟨o1, a1, a2, a3⟩ := run_turned null0 junk i d hf hle hP hnull (hs (decs i.nt P)) out
  obtain ⟨o2, c1, c2, c3, c4⟩ := close_turned hP h0 hle h1 i1 (by omega) (by omega) i2 (openRead_text hopen).1 o1
  refine ⟨o2, ?_, ?_, c2, fun c hc j hj => ?_, fun k hk x => ?_⟩
  · rw [run_example2 null0 junk sched hP hopen (nt_lt hf.size), (header_fits (by omega)).1, a1, Res.ok_bind, c1]
  · rw [BitVec.ofInt_toInt, ← hiv] at c4
    exact c4
  · refine (a2 c hc j hj).congr fun x hx => c3 x ?_
    have : 3600 ≤ taddr i.nt (c.globalOffset + j) := by unfold taddr; omega
    omega
  · show o2.byte _ = out.byte _
    have : i.nt * (240 + 4 * i.nt) ≤ k * (240 + 4 * i.nt) := Nat.mul_le_mul_right _ hk
    rw [c3 _ (by omega), a3 _ (Or.inr (by omega))]

/-- **C84**. For files with as many traces as samples, in the IEEE format and with a positive interval, any number of
processes (at most as many as traces if `malloc` gives NULL for no bytes) and any order of the writes: `example2` ends and
leaves a file that opens with the numbers and the interval of the input and has of every trace the samples and the items of the
default rule. Missing, and false of the program: files of any other shape (`C84_shape_refuted`, `C84_overread_refuted`,
`C84_long_refuted`), an interval of 0 (`C84_interval_refuted`), other processes (`C84_processes_refuted`), and the rest of the
header. -/
theorem C84_square_partial (null0 : Bool) (junk : Nat → Byte) (sched : List Decomp.Dec → List Decomp.Dec)
    (hs : ∀ l, (sched l).Perm l) (P : Nat) (hP : 0 < P) (d : Disk) (i : Info) (hopen : openRead d = .ok i) (hd : d.size < 2 ^ 63)
    (h0 : 0 < i.ns) (h1 : i.ns ≤ 32767) (hsq : i.nt = i.ns) (hinc : 0 < i.inc) (hfmt : i.format ≠ 1#16)
    (hnull : null0 = false ∨ P ≤ i.nt) (out : Disk) :
    ∃ out', example2 null0 junk sched P d out = .ok out' ∧
      openRead out' = .ok ⟨i.ns, i.nt, i.inc, 5#16, CharEnc.readText (shown (cstr i.text))⟩ ∧
      out'.size = 3600 + i.nt * (240 + 4 * i.ns) ∧ ∀ k, k < i.nt → Carried i.ns d k out' := by
  obtain ⟨o, e1, e2, e3, e4, -⟩ := turned_spec null0 junk sched hs hP hopen hd (by omega) (by omega) h1 hinc hfmt hnull out
  refine ⟨o, e1, by rw [e2, hsq], by rw [e3, hsq], fun k hk => ?_⟩
  obtain ⟨c, hc, j, hj, rfl⟩ := decs_cover hP hk
  obtain ⟨a1, a2⟩ := e4 c hc j hj
  rw [hsq] at a1 a2
  obtain ⟨b1, b2, b3⟩ := a1.kept
  obtain ⟨p, row, c1, ⟨c2, c3⟩, c4, c5⟩ := a1
  refine ⟨fun x hx0 hx1 => ?_, b1, b2, b3⟩
  have hsame : ∀ s, s < i.ns → dsamp o i.ns (c.globalOffset + j) s = dsamp d i.ns (c.globalOffset + j) s := by
    intro s hs
    rw [a2 s hs, Nat.add_comm (j * i.ns), Nat.add_mul_div_right _ _ h0, Nat.add_mul_mod_self_right, Nat.div_eq_of_lt hs,
      Nat.mod_eq_of_lt hs, Nat.zero_add]
  exact Again.sampleBytes (ops := dbl) (rule := dr) ⟨hsame, p, row, c2, c1, c3, c4, fun hc => absurd dr_copy hc, c5⟩ hx0 hx1

/-- **C84** refuted for files with fewer traces than samples: the file opens with the two numbers exchanged; each share is cut
into traces of the wrong length; the traces beyond those of the input are what was there before. -/
theorem C84_shape_refuted (null0 : Bool) (junk : Nat → Byte) (sched : List Decomp.Dec → List Decomp.Dec)
    (hs : ∀ l, (sched l).Perm l) (P : Nat) (hP : 0 < P) (d : Disk) (i : Info) (hopen : openRead d = .ok i) (hd : d.size < 2 ^ 63)
    (h0 : 0 < i.nt) (h1 : i.ns ≤ 32767) (hlt : i.nt < i.ns) (hinc : 0 < i.inc) (hfmt : i.format ≠ 1#16)
    (hnull : null0 = false ∨ P ≤ i.nt) (ds : List Decomp.Dec)
    (hds : Flow.collect (Decomp.blockDecomposition i.nt P) (List.range P) = .ok ds) (out : Disk) :
    ∃ out' i', example2 null0 junk sched P d out = .ok out' ∧ openRead out' = .ok i' ∧ i'.ns = i.nt ∧ i'.nt = i.ns ∧
      i'.ns ≠ i.ns ∧
      (∀ c ∈ ds, ∀ j, j < c.localSize → Kept i.ns i.nt d (c.globalOffset + j) out' ∧
        ∀ s, s < i.nt → dsamp out' i.nt (c.globalOffset + j) s =
          dsamp d i.ns (c.globalOffset + (j * i.nt + s) / i.ns) ((j * i.nt + s) % i.ns)) ∧
      ∀ k, i.nt ≤ k → ∀ x, recByte out' i.nt k x = recByte out i.nt k x := by
  obtain ⟨o, e1, e2, -, e4, e5⟩ := turned_spec null0 junk sched hs hP hopen hd h0 (by omega) h1 hinc hfmt hnull out
  have hf := fileOk hopen hd (by omega) h1 hfmt
  rw [decs_eq hP (by have := nt_lt hf.size; omega), Res.ok.injEq] at hds
  subst hds
  exact ⟨o, _, e1, e2, rfl, rfl, by dsimp only; omega, fun c hc j hj => ⟨(e4 c hc j hj).header.kept, (e4 c hc j hj).samples⟩, e5⟩

/-- **C84** refuted for files with more traces than samples, as nearly all are: memory beyond the samples read is written to the
file, which is undefined. -/
theorem C84_overread_refuted (null0 : Bool) (junk : Nat → Byte) (sched : List Decomp.Dec → List Decomp.Dec)
    (hs : ∀ l, (sched l).Perm l) (P : Nat) (hP : 0 < P) (d : Disk) (i : Info) (hopen : openRead d = .ok i) (hd : d.size < 2 ^ 63)
    (h0 : 0 < i.ns) (hlt : i.ns < i.nt) (h1 : i.nt ≤ 32767) (hfmt : i.format ≠ 1#16)
    (hnull : null0 = false ∨ P ≤ i.nt) (out : Disk) : example2 null0 junk sched P d out = .ub := by
  have hf := fileOk hopen hd h0 (by omega) hfmt
  have hw : taddr i.nt i.nt < 2 ^ 63 := by
    have : i.nt * (240 + 4 * i.nt) ≤ 32767 * (240 + 4 * 32767) := Nat.mul_le_mul h1 (by omega)
    unfold taddr
    omega
  have key : ∀ (l : List Decomp.Dec) (o : Disk), (∀ c ∈ l, c.globalOffset + c.localSize ≤ i.nt) →
      (∀ c ∈ l, null0 = false ∨ 0 < c.localSize) → (∃ c ∈ l, 0 < c.localSize) →
      runBlocks (turnBlock null0 junk i i.nt d) l o = .ub := by
    intro l
    induction l with
    | nil => rintro o _ _ ⟨c, hc, -⟩; simp at hc
    | cons c l ih =>
      intro o hc hn he
      unfold CCreate.runBlocks
      rcases Nat.eq_zero_or_pos c.localSize with h | h
      · obtain ⟨o1, e1, -⟩ := turnBlock_spec null0 junk i d hf c (Or.inr h) hw (hc c (by simp)) (hn c (by simp)) o
        rw [e1, Res.ok_bind]
        refine ih o1 (fun x hx => hc x (by simp [hx])) (fun x hx => hn x (by simp [hx])) ?_
        obtain ⟨x, hx, hz⟩ := he
        rcases List.mem_cons.1 hx with rfl | hx
        · omega
        · exact ⟨x, hx, hz⟩
      · rw [turnBlock_ub null0 junk i d hf hlt h1 h1 c (hc c (by simp)) h]; rfl
  rw [run_example2 null0 junk sched hP hopen (nt_lt hf.size), (header_fits h1).1,
    key _ _ (fun c hc => decs_le hP c ((hs _).mem_iff.1 hc)) (fun c hc => shares_pos hP hnull c ((hs _).mem_iff.1 hc)) ?_]
  · rfl
  · obtain ⟨c, hc, j, hj, -⟩ := decs_cover (nt := i.nt) (k := 0) hP (by omega)
    exact ⟨c, (hs _).mem_iff.2 hc, by omega⟩

/-- **C84** refuted for files with more than 32767 traces: no file header is written, and nothing outside the place of
headers one after the other, so no sample either. -/
theorem C84_long_refuted (null0 : Bool) (junk : Nat → Byte) (sched : List Decomp.Dec → List Decomp.Dec)
    (hs : ∀ l, (sched l).Perm l) (P : Nat) (hP : 0 < P) (d : Disk) (i : Info) (hopen : openRead d = .ok i) (hd : d.size < 2 ^ 63)
    (h0 : 0 < i.ns) (h1 : i.ns ≤ 32767) (hlt : 32767 < i.nt) (hfmt : i.format ≠ 1#16)
    (hnull : null0 = false ∨ P ≤ i.nt) (out : Disk) :
    ∃ out', example2 null0 junk sched P d out = .ok out' ∧ (∀ x, x < 3600 → out'.byte x = out.byte x) ∧
      (∀ x, 3600 + 240 * i.nt ≤ x → out'.byte x = out.byte x) ∧ ∀ k, k < i.nt → Kept i.ns 0 d k out' := by
  have hf := fileOk hopen hd h0 h1 hfmt
  obtain ⟨w1, w2⟩ := header_long hlt
  obtain ⟨o, a1, a2, a3⟩ := run_turned null0 junk i d hf (Nat.zero_le _) hP hnull (hs (decs i.nt P)) out
  refine ⟨o, ?_, fun x hx => a3 x (Or.inl hx), fun x hx => a3 x (Or.inr (by omega)), fun k hk => ?_⟩
  · rw [run_example2 null0 junk sched hP hopen (nt_lt hf.size), w1, a1, Res.ok_bind, close_err hP w2]
  · obtain ⟨c, hc, j, hj, rfl⟩ := decs_cover hP hk
    exact (a2 c hc j hj).header.kept

/-- **C84** refuted for an interval of 0: the program ends without complaint, and no file header is written. -/
theorem C84_interval_refuted (null0 : Bool) (junk : Nat → Byte) (sched : List Decomp.Dec → List Decomp.Dec)
    (hs : ∀ l, (sched l).Perm l) (P : Nat) (hP : 0 < P) (d : Disk) (i : Info) (hopen : openRead d = .ok i) (hd : d.size < 2 ^ 63)
    (h0 : 0 < i.ns) (hle : i.nt ≤ i.ns) (h1 : i.ns ≤ 32767) (hinc : i.inc = 0) (hfmt : i.format ≠ 1#16)
    (hnull : null0 = false ∨ P ≤ i.nt) (out : Disk) :
    ∃ out', example2 null0 junk sched P d out = .ok out' ∧ ∀ x, x < 3600 → out'.byte x = out.byte x := by
  have hf := fileOk hopen hd h0 h1 hfmt
  obtain ⟨w1, w2, w3⟩ := header_fits (i := i) (by omega)
  obtain ⟨o, a1, a2, a3⟩ := run_turned null0 junk i d hf hle hP hnull (hs (decs i.nt P)) out
  refine ⟨o, ?_, fun x hx => a3 x (Or.inl hx)⟩
  rw [run_example2 null0 junk sched hP hopen (nt_lt hf.size), w1, a1, Res.ok_bind, close_err hP (w3.2 (by
    rw [hinc, abs_zero]; exact two_zpow_pos _))]

/-- **C84** refuted: with more processes than traces, where `malloc` gives NULL for no bytes, the program ends in a failed
assertion. -/
theorem C84_processes_refuted (junk : Nat → Byte) (sched : List Decomp.Dec → List Decomp.Dec)
    (hs : ∀ l, (sched l).Perm l) (P : Nat) (d : Disk) (i : Info) (hopen : openRead d = .ok i) (hd : d.size < 2 ^ 63)
    (h0 : 0 < i.ns) (hle : i.nt ≤ i.ns) (h1 : i.ns ≤ 32767) (hlt : i.nt < P) (hfmt : i.format ≠ 1#16) (out : Disk) :
    example2 true junk sched P d out = .abort := by
  have hf := fileOk hopen hd h0 h1 hfmt
  have key : ∀ (l : List Decomp.Dec) (o : Disk), (∀ c ∈ l, c.globalOffset + c.localSize ≤ i.nt) →
      (∃ c ∈ l, c.localSize = 0) → runBlocks (turnBlock true junk i i.nt d) l o = .abort := by
    intro l
    induction l with
    | nil => rintro o _ ⟨c, hc, -⟩; simp at hc
    | cons c l ih =>
      intro o hc he
      unfold CCreate.runBlocks
      rcases Nat.eq_zero_or_pos c.localSize with h | h
      · unfold turnBlock
        rw [ctor_default, Res.ok_bind, h]
        rw [show memory true junk (mul64 0 (getDFSz i.ns)) = none by
          unfold memory; rw [if_pos ⟨by unfold mul64; simp, rfl⟩]]
        rfl
      · obtain ⟨o1, e1, -⟩ := turnBlock_spec true junk i d hf c (Or.inl hle) (narrower hle hf.size) (hc c (by simp)) (Or.inr h) o
        rw [e1, Res.ok_bind]
        refine ih o1 (fun x hx => hc x (by simp [hx])) ?_
        obtain ⟨x, hx, hz⟩ := he
        rcases List.mem_cons.1 hx with rfl | hx
        · omega
        · exact ⟨x, hx, hz⟩
  rw [run_example2 true junk sched (by omega) hopen (nt_lt hf.size), (header_fits (by omega)).1,
    key _ _ (fun c hc => decs_le (by omega) c ((hs _).mem_iff.1 hc))
    ⟨⟨Decomp.off i.nt P (P - 1), Decomp.sz i.nt P (P - 1)⟩, (hs _).mem_iff.2
      (List.mem_map.2 ⟨P - 1, List.mem_range.2 (by omega), rfl⟩), ?_⟩]
  · rfl
  · dsimp only
    unfold Decomp.sz
    rw [Nat.div_eq_of_lt hlt, Nat.mod_eq_of_lt hlt, if_neg (by omega)]

/-! ### Cases -/

/-- The hypotheses of `C84_square_partial`: two traces of two samples, on two processes and, where `malloc` gives memory for no
bytes, on three. -/
example : (∃ o, example2 true (fun _ => 9#8) List.reverse 2 (exCopy 2 6#8 0x20) ⟨0, fun _ => 0#8⟩ = .ok o ∧
      recByte o 2 1 247 = 6#8 ∧ be32 o 2 1 37 = 0x06060606#32) ∧
    ∃ o, example2 false (fun _ => 9#8) id 3 (exCopy 2 6#8 0x20) ⟨0, fun _ => 0#8⟩ = .ok o := by
  have ho := exCopy_open (n := 2) 6#8 (w := 0x20) (by omega) (by decide)
  obtain ⟨o, e1, -, -, e4⟩ := C84_square_partial true (fun _ => 9#8) List.reverse (fun l => List.reverse_perm l) 2 (by omega) _ _ ho
    (by decide) (by simp) (by simp) rfl exInc_pos (by decide) (Or.inr (by simp)) ⟨0, fun _ => 0#8⟩
  obtain ⟨o', g1, -⟩ := C84_square_partial false (fun _ => 9#8) id (fun _ => List.Perm.refl _) 3 (by omega) _ _ ho
    (by decide) (by simp) (by simp) rfl exInc_pos (by decide) (Or.inl rfl) ⟨0, fun _ => 0#8⟩
  refine ⟨⟨o, e1, ?_, ?_⟩, o', g1⟩
  · rw [(e4 1 (by simp)).samples 247 (by omega) (by simp)]; decide
  · rw [(e4 1 (by simp)).numbers 37 (by simp)]; decide

/-- The hypotheses of `C84_shape_refuted`: one trace of two samples becomes two traces of one, the second never written. -/
example : ∃ o i, example2 true (fun _ => 9#8) id 1 (exCopy 1 6#8 0x20) ⟨0, fun _ => 5#8⟩ = .ok o ∧ openRead o = .ok i ∧
    i.ns = 1 ∧ i.nt = 2 ∧ dsamp o 1 0 0 = 0x06060606#32 ∧ recByte o 1 1 243 = 5#8 := by
  have ho := exCopy_open (n := 1) 6#8 (w := 0x20) (by omega) (by decide)
  obtain ⟨o, i, e1, e2, e3, e4, -, e5, e6⟩ := C84_shape_refuted true (fun _ => 9#8) id (fun _ => List.Perm.refl _) 1 (by omega) _ _ ho
    (by decide) (by simp) (by simp) (by simp) exInc_pos (by decide) (Or.inr (by simp)) [⟨0, 1⟩] (by decide) ⟨0, fun _ => 5#8⟩
  refine ⟨o, i, e1, e2, e3, e4, ?_, ?_⟩
  · have := (e5 ⟨0, 1⟩ (by simp) 0 (by simp)).2 0 (by simp)
    rw [show dsamp o 1 0 0 = dsamp (exCopy 1 6#8 0x20) 2 0 0 from this]
    decide
  · rw [show recByte o 1 1 243 = recByte ⟨0, fun _ => 5#8⟩ 1 1 243 from e6 1 (by simp) 243]
    rfl

/-- The hypotheses of `C84_overread_refuted`: five traces of two samples. -/
example (out : Disk) : example2 true (fun _ => 9#8) List.reverse 3 (exCopy 5 6#8 0x20) out = .ub :=
  C84_overread_refuted true (fun _ => 9#8) List.reverse (fun l => List.reverse_perm l) 3 (by omega) _ _
    (exCopy_open (n := 5) 6#8 (w := 0x20) (by omega) (by decide)) (by decide) (by simp) (by simp) (by simp) (by decide)
    (Or.inr (by simp)) out

/-- The hypotheses of `C84_long_refuted`: 40000 traces of two samples. -/
example (out : Disk) : ∃ o, example2 true (fun _ => 9#8) List.reverse 3 (exCopy 40000 6#8 0x20) out = .ok o ∧
    ∀ x, x < 3600 → o.byte x = out.byte x := by
  obtain ⟨n, hn⟩ : ∃ n, n = 40000 := ⟨_, rfl⟩
  rw [← hn]
  have hz : plainSz n 2 < 2 ^ 63 := by unfold plainSz; omega
  obtain ⟨o, e1, e2, -⟩ := C84_long_refuted true (fun _ => 9#8) List.reverse (fun l => List.reverse_perm l) 3 (by omega) _ _
    (exCopy_open (n := n) 6#8 (w := 0x20) (by omega) hz) hz (by simp) (by simp) (by dsimp only; omega) (by dsimp only; decide)
    (Or.inr (by dsimp only; omega)) out
  exact ⟨o, e1, e2⟩

/-- The hypotheses of `C84_interval_refuted`. -/
example (out : Disk) : ∃ o, example2 true (fun _ => 9#8) id 1 (exFile true 1 7#8) out = .ok o ∧
    ∀ x, x < 3600 → o.byte x = out.byte x := by
  obtain ⟨t, ho⟩ := exFile_open true (n := 1) 7#8 (by decide)
  exact C84_interval_refuted true (fun _ => 9#8) id (fun _ => List.Perm.refl _) 1 (by omega) _ _ ho (by decide) (by simp) (by simp)
    (by simp) exInc_zero (by dsimp only; decide) (Or.inr (by simp)) out

/-- The hypotheses of `C84_processes_refuted`. -/
example (out : Disk) : example2 true (fun _ => 9#8) List.reverse 3 (exCopy 2 6#8 0x20) out = .abort :=
  C84_processes_refuted (fun _ => 9#8) List.reverse (fun l => List.reverse_perm l) 3 _ _
    (exCopy_open (n := 2) 6#8 (w := 0x20) (by omega) (by decide)) (by decide) (by simp) (by simp) (by simp) (by simp) (by decide) out

end Verif.CTurn
