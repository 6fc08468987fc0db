import Verif.Flow.FreqSet
import Verif.Props.Freq
import Verif.Props.Process

/-!
C111: files of a set filtered in the frequency domain.
-/

namespace Verif.Signal
open Finset

theorem bin_reflect (x : List ℝ) (k : Nat) (hk : k ≤ x.length) : bin x (x.length - k) = (starRingEnd ℂ) (bin x k) := by
  unfold bin
  rw [map_sum]
  refine sum_congr rfl (fun j hj => ?_)
  have h0 : 0 < x.length := by have := mem_range.mp hj; omega
  rw [map_mul, Complex.conj_ofReal, turn_conj, neg_neg]
  congr 1
  have e : (-((j : ℤ) * ((x.length - k : Nat) : ℤ))) = j * k + x.length * (-j) := by
    push_cast [Nat.cast_sub hk]; ring
  rw [e, turn_add, turn_whole _ h0, mul_one]

/-- Samples are determined by their frequencies up to half the length. -/
theorem bin_ext (x y : List ℝ) (hl : y.length = x.length) (h : ∀ k, k ≤ x.length / 2 → bin y k = bin x k) : y = x := by
  have hall : ∀ k, k < x.length → bin y k = bin x k := by
    intro k hk
    rcases Nat.lt_or_ge (x.length / 2) k with h1 | h1
    · have h2 := h (x.length - k) (by omega)
      have e1 := bin_reflect x (x.length - k) (by omega)
      have e2 := bin_reflect y (x.length - k) (by omega)
      rw [show x.length - (x.length - k) = k by omega] at e1
      rw [hl, show x.length - (x.length - k) = k by omega] at e2
      rw [e1, e2, h2]
    · exact h k h1
  have inv : ∀ z : List ℝ, ∀ l, l < z.length → ∑ k ∈ range z.length, bin z k * turn z.length (k * l) = z.length * ((z.getD l 0 : ℝ) : ℂ) := by
    intro z l hlz
    have e : ∀ k ∈ range z.length, bin z k * turn z.length (k * l) =
        ∑ j ∈ range z.length, ((z.getD j 0 : ℝ) : ℂ) * turn z.length (k * ((l : ℤ) - j)) := by
      intro k _
      unfold bin
      rw [sum_mul]
      refine sum_congr rfl (fun j _ => ?_)
      rw [mul_assoc, ← turn_add]
      congr 2
      ring
    rw [sum_congr rfl e, sum_comm]
    have e2 : ∀ j ∈ range z.length, ∑ k ∈ range z.length, ((z.getD j 0 : ℝ) : ℂ) * turn z.length (k * ((l : ℤ) - j)) =
        if j = l then z.length * ((z.getD l 0 : ℝ) : ℂ) else 0 := by
      intro j hj
      have hj := mem_range.mp hj
      rw [← mul_sum, turn_sum _ _ (by omega) (by omega)]
      by_cases hjl : j = l
      · rw [if_pos hjl, if_pos (by omega), hjl, mul_comm]
      · rw [if_neg hjl, if_neg (by omega), mul_zero]
    rw [sum_congr rfl e2, sum_ite_eq' (range z.length) l, if_pos (mem_range.mpr hlz)]
  refine List.ext_getElem hl (fun l h1 h2 => ?_)
  have i1 := inv x l h2
  have i2 := inv y l h1
  rw [hl, sum_congr rfl (fun k hk => by rw [hall k (mem_range.mp hk)]), i1] at i2
  have hn : (x.length : ℂ) ≠ 0 := by
    have : x.length ≠ 0 := by omega
    exact_mod_cast this
  have h3 := mul_left_cancel₀ hn i2
  rw [List.getD_eq_getElem _ _ h1, List.getD_eq_getElem _ _ h2] at h3
  exact_mod_cast h3.symm

/-- `z` is the window `w` filtered: every frequency is multiplied by the number whose parts are the sizes of the parts of the response. -/
def Passed (fs : ℝ) (b a w z : List ℝ) : Prop :=
  z.length = w.length ∧ ∀ k, k ≤ w.length / 2 → bin z k =
    bin w k * ⟨|(response fs w.length b a k).re|, if k = 0 ∨ 2 * k = w.length then 0 else |(response fs w.length b a k).im|⟩

/-- C110, all in one: what `filterFreq` returns is the only list of samples that has those frequencies. -/
theorem C110_only_partial (fs : ℝ) (N : Nat) (b a trc : List ℝ) (hn : 0 < trc.length) (hb : b.length = N + 1) (ha : a.length = N + 1)
    (y : List ℝ) : filterFreq ⟨none, none⟩ fs N b a trc = .ok y ↔ Passed fs b a trc y := by
  obtain ⟨z, e, hz, hk⟩ := C110_bins_partial fs N b a trc hn hb ha
  have hp : Passed fs b a trc z := by
    refine ⟨hz, fun k h => ?_⟩
    by_cases h0 : k = 0 ∨ 2 * k = trc.length
    · rw [if_pos h0, (hk k h).2 h0]
      rfl
    · rw [if_neg h0, (hk k h).1 (by omega) (by omega)]
  rw [e, Res.ok.injEq]
  constructor
  · rintro rfl; exact hp
  · intro hy
    refine (bin_ext z y (by rw [hy.1, hz]) fun k h => ?_).symm
    rw [hz] at h
    rw [hy.2 k h, hp.2 k h]

end Verif.Signal

namespace Verif.Flow
open Verif.Rules Verif.Params Verif.Files Verif.Layout Verif.Endian Verif.FP Verif.Signal

variable {F : Type} (toR : Flt → ℝ) (ofR : ℝ → Flt)

/-- `y` is `s` with its window replaced by what `W` says. -/
def Windowed (W : List ℝ → List ℝ → Prop) (nw c : Nat) (s y : List Flt) : Prop :=
  oddWindow s.length nw / 2 ≤ centre s.length c ∧ centre s.length c + oddWindow s.length nw / 2 < s.length ∧
    ∃ z, W (((s.drop (centre s.length c - oddWindow s.length nw / 2)).take (oddWindow s.length nw)).map toR) z ∧
      y.length = s.length ∧ ∀ i, i < s.length → y[i]? =
        if centre s.length c - oddWindow s.length nw / 2 ≤ i ∧
            i < centre s.length c - oddWindow s.length nw / 2 + oddWindow s.length nw then
          (z[i - (centre s.length c - oddWindow s.length nw / 2)]?).map ofR
        else s[i]?

theorem windowed_unique {W : List ℝ → List ℝ → Prop} (hW : ∀ w z z', W w z → W w z' → z = z') {nw c : Nat} {s y y' : List Flt}
    (h : Windowed toR ofR W nw c s y) (h' : Windowed toR ofR W nw c s y') : y = y' := by
  obtain ⟨-, -, z, a3, a4, a5⟩ := h
  obtain ⟨-, -, z', b3, b4, b5⟩ := h'
  obtain rfl := hW _ _ _ a3 b3
  refine List.ext_getElem? fun i => ?_
  by_cases hi : i < s.length
  · rw [a5 i hi, b5 i hi]
  · rw [List.getElem?_eq_none (by omega), List.getElem?_eq_none (by omega)]

theorem byTrace_freq (p : Planner) (fs : ℝ) (m : Nat) (b a : List ℝ) (nw c ns : Nat) (hns : 1 ≤ ns) (h32 : ns ≤ 32767)
    (W : List ℝ → List ℝ → Prop)
    (hW : ∀ w : List ℝ, w.length = oddWindow ns nw → ∃ z, filterFreq p fs m b a w = .ok z ∧ z.length = w.length ∧ W w z) :
    ByTrace (freqOp toR ofR p fs m b a nw c) ns (fun s => ∃ y, Windowed toR ofR W nw c s y) (Windowed toR ofR W nw c) := by
  intro n t hn ht h63 hD
  have hl0 := part_length ht hn
  obtain ⟨y0, c6, c7, -⟩ := hD 0 hn
  rw [hl0] at c6 c7
  obtain ⟨-, w1, w2⟩ := oddWindow_spec ns nw hns
  have hG : ∀ w : List Flt, ∃ g : List Flt, w.length = oddWindow ns nw → ∃ z,
      filterFreq p fs m b a (w.map toR) = .ok z ∧ g = z.map ofR ∧ g.length = oddWindow ns nw ∧ W (w.map toR) z := by
    intro w
    by_cases hw : w.length = oddWindow ns nw
    · obtain ⟨z, z1, z2, z3⟩ := hW (w.map toR) (by rw [List.length_map]; exact hw)
      exact ⟨z.map ofR, fun _ => ⟨z, z1, rfl, by rw [List.length_map, z2, List.length_map]; exact hw, z3⟩⟩
    · exact ⟨[], fun h => absurd h hw⟩
  choose G hG using hG
  obtain ⟨out, e1, e2, e3⟩ := C43_window_partial n ns t (fun _ w => do
      let y ← filterFreq p fs m b a (w.map toR)
      .ok (y.map ofR)) nw c ht (by omega) hns c6 c7 G (fun w hw => by
    obtain ⟨z, z1, z2, z3, -⟩ := hG w hw
    exact ⟨by rw [z1, Res.ok_bind, z2], z3⟩)
  refine ⟨out, e1, e2, fun j hj => ?_⟩
  have hlj := part_length ht hj
  unfold Windowed
  rw [hlj]
  have hwin : ((part ns j t).drop (centre ns c - oddWindow ns nw / 2)).take (oddWindow ns nw) =
      (t.drop (j * ns + (centre ns c - oddWindow ns nw / 2))).take (oddWindow ns nw) := by
    unfold part
    rw [List.drop_take, List.drop_drop, List.take_take, Nat.min_eq_left (by omega)]
  rw [hwin]
  obtain ⟨z, -, z2, z3, z1⟩ := hG ((t.drop (j * ns + (centre ns c - oddWindow ns nw / 2))).take (oddWindow ns nw)) (by
    rw [← hwin, List.length_take, List.length_drop, hlj]; omega)
  refine ⟨c6, c7, z, z1, part_length e2 hj, fun i hi => ?_⟩
  rw [part_get hi, part_get hi]
  have hlt := row_lt hj hi
  rw [sig_get (by rw [e2]; exact hlt), e3 j i hj hi]
  by_cases hc : centre ns c - oddWindow ns nw / 2 ≤ i ∧ i < centre ns c - oddWindow ns nw / 2 + oddWindow ns nw
  · rw [if_pos hc, if_pos hc, ← sig_get (by rw [z3]; omega), z2, List.getElem?_map]
  · rw [if_neg hc, if_neg hc, ← sig_get (by rw [ht]; exact hlt)]

/-- What is made of the files of a group that are not in the IBM format, for any operations that work by traces. -/
theorem process_plain {queue : List BlockOp} {D : List Flt → Prop} {R : List Flt → List Flt → Prop}
    (ops : FloatOps F) (cv : Conv F (BitVec 64)) (hcv : ∀ v, cv.toT v = v) (zero : F)
    (idx : List Nat → List Nat) (hidx : IsSortIndex idx) (sched : List Chunk → List Chunk) (hs : ∀ l, (sched l).Perm l)
    (P : Nat) (hP : 0 < P) (code : ℚ → Int) (hcode : Function.Injective code) (msg : List Nat) (hmsg : ∀ x ∈ msg, x < 256)
    (ds : List Disk) (info : Disk → Info) (hopen : ∀ d ∈ ds, openRead d = .ok (info d)) (hsize : ∀ d ∈ ds, d.size < 2 ^ 63)
    (ns : Nat) (h0 : 0 < ns) (h1 : ns ≤ 32767) (inc : ℚ) (hinc : 0 < inc) (grp : List Disk)
    (hgrp : grp = ds.filter fun d => (info d).ns = ns ∧ (info d).inc = inc) (hne : grp ≠ [])
    (hfmt : ∀ d ∈ grp, (info d).format ≠ 1#16) (N : Nat) (hN : N = (grp.map fun d => (info d).nt).sum)
    (hsz : 3600 + N * (240 + 4 * ns) < 2 ^ 63) (hq : QueueOk queue ns D R)
    (hl : ∀ d ∈ grp, ∀ k, k < (info d).nt → D (trace d ns k)) (out : Disk) :
    ∃ out', processSet queue ops cv zero idx sched P code msg ds (ns, code inc) out = .ok out' ∧
      openRead out' = .ok ⟨ns, N, inc, 5#16, CharEnc.readText (shown msg)⟩ ∧
      out'.size = 3600 + N * (240 + 4 * ns) ∧
      headers out' ns N = (grp.flatMap fun d => headers d ns (info d).nt) ∧
      List.Forall₂ R (grp.flatMap fun d => traces d ns (info d).nt) (traces out' ns N) := by
  obtain ⟨fs, hG, hib, hc, hplaces, hrec, iv, hiv⟩ := concat_prep ops cv zero idx sched P hP code hcode msg ds info hopen hsize ns
    h0 h1 inc grp hgrp hne N hN hsz
  obtain ⟨i1, i2, i3, i4⟩ := inc_again (iv := iv) (by rw [← hiv]; exact hinc)
  rw [← hiv] at i1 i2
  obtain ⟨o', e1, e2, e3, e4⟩ := output_specQ ops cv hcv zero cr cr_ok (Or.inl cr_float) idx hidx sched hs hG (no_ibm hfmt hib)
    hq (by
      intro f hf r hr k hk
      obtain ⟨g1, g2⟩ := (mem_sources hrec f.disk k).2 ⟨f, hf, rfl, r, hr, hk⟩
      exact hl _ g1 k g2)
    (by rw [cr_mem]; omega) i1 (by omega) (by omega) i2 hmsg out
  have hall := sources_places hG.lengths hplaces hrec (Q := fun x p => hdrBytes o' ns p = hdrBytes x.1 ns x.2 ∧
    R (trace x.1 ns x.2) (trace o' ns p)) fun f hf r hr i k k' h1 h2 =>
      ⟨(e4 f hf r hr i k k' h1 h2).hdr, (e4 f hf r hr i k k' h1 h2).samples⟩
  refine ⟨o', by rw [hc, e1], ?_, e2, ?_, ?_⟩
  · rw [BitVec.ofInt_toInt, ← hiv] at e3
    exact e3
  · have := forall2_lists hall (R := Eq) (fun d k => hdrBytes d ns k) (fun p => hdrBytes o' ns p) fun d k p h => h.1.symm
    rw [List.forall₂_eq_eq_eq] at this
    exact this.symm
  · exact forall2_lists hall (fun d k => trace d ns k) (fun p => trace o' ns p) fun d k p h => h.2

section
variable [Mul Flt] {K : Type} [Field K] (toK : Flt → K) (ofK : K → Flt)

/-- The operations on single traces with filters in either domain. -/
inductive SetOp (K : Type) where
  | plain (o : TraceOp K)
  | freq (fs : ℝ) (m : Nat) (b a : List ℝ) (nw c : Nat)

/-- What the set runs for it; the planner of FFTW leaves the arrays alone. -/
noncomputable def SetOp.op : SetOp K → BlockOp
  | .plain o => o.op toK ofK
  | .freq fs m b a nw c => freqOp toR ofR ⟨none, none⟩ fs m b a nw c

/-- `y` is the result of the operation for the trace `s`. -/
def SetOp.Gives : SetOp K → List Flt → List Flt → Prop
  | .plain o, s, y => o.Gives toK ofK s y
  | .freq fs m b a nw c, s, y => b.length = m + 1 ∧ a.length = m + 1 ∧ Windowed toR ofR (Passed fs b a) nw c s y

/-- The results of operations one after the other. -/
def SetOp.All : List (SetOp K) → List Flt → List Flt → Prop
  | [], s, y => s = y
  | o :: l, s, y => ∃ z, o.Gives toR ofR toK ofK s z ∧ SetOp.All l z y

omit [Mul Flt] [Field K] in
theorem passed_unique {fs : ℝ} {b a w z z' : List ℝ} (h : Passed fs b a w z) (h' : Passed fs b a w z') : z = z' := by
  refine bin_ext z' z (by rw [h.1, h'.1]) fun k hk => ?_
  rw [h'.1] at hk
  rw [h.2 k hk, h'.2 k hk]

theorem setOp_unique (o : SetOp K) {s y y' : List Flt} (h : o.Gives toR ofR toK ofK s y) (h' : o.Gives toR ofR toK ofK s y') : y = y' := by
  cases o with
  | plain o => exact gives_unique toK ofK o h h'
  | freq fs m b a nw c => exact windowed_unique toR ofR (fun _ _ _ => passed_unique) h.2.2 h'.2.2

theorem byTrace_setOp (o : SetOp K) (ns : Nat) (hns : 1 ≤ ns) (h32 : ns ≤ 32767) :
    ByTrace (o.op toR ofR toK ofK) ns (fun s => ∃ y, o.Gives toR ofR toK ofK s y) (o.Gives toR ofR toK ofK) := by
  cases o with
  | plain o => exact byTrace toK ofK o ns hns h32
  | freq fs m b a nw c =>
    intro n t hn ht h63 hD
    obtain ⟨y, hb, ha, -⟩ := hD 0 hn
    obtain ⟨b', h1, h2, h3⟩ := byTrace_freq toR ofR ⟨none, none⟩ fs m b a nw c ns hns h32 (Passed fs b a) (fun w hw => by
      obtain ⟨-, w1, -⟩ := oddWindow_spec ns nw hns
      obtain ⟨z, z1, z2, -⟩ := C110_bins_partial fs m b a w (by omega) hb ha
      exact ⟨z, z1, z2, (C110_only_partial fs m b a w (by omega) hb ha z).1 z1⟩) n t hn ht h63 (fun j hj => by
      obtain ⟨y, -, -, h⟩ := hD j hj
      exact ⟨y, h⟩)
    exact ⟨b', h1, h2, fun j hj => ⟨hb, ha, h3 j hj⟩⟩

theorem queueOk_setOp (l : List (SetOp K)) (ns : Nat) (hns : 1 ≤ ns) (h32 : ns ≤ 32767) :
    QueueOk (l.map (SetOp.op toR ofR toK ofK)) ns (fun s => ∃ y, SetOp.All toR ofR toK ofK l s y) (SetOp.All toR ofR toK ofK l) := by
  induction l with
  | nil => exact fun n t hn h1 h2 _ => queueOk_nil ns n t hn h1 h2 (fun _ _ => trivial)
  | cons o l ih =>
    refine queueOk_cons (byTrace_setOp toR ofR toK ofK o ns hns h32) ih ?_
    rintro s ⟨y, z, hz, hy⟩
    refine ⟨⟨z, hz⟩, fun z' hz' => ⟨y, ?_⟩⟩
    rw [setOp_unique toR ofR toK ofK o hz' hz]
    exact hy

/-- **C111**. As C90, with filters in the frequency domain among the operations: if the planner leaves the arrays alone, the output of the files
with `ns` samples and interval `inc` opens with the total of their traces, its headers are those of the files, and the samples
of each trace are what tapers, gain controls and filters in either domain, in their order, make of those in the file. -/
theorem C111_files_partial (ops : FloatOps F) (cv : Conv F (BitVec 64)) (hcv : ∀ v, cv.toT v = v) (zero : F)
    (idx : List Nat → List Nat) (hidx : IsSortIndex idx) (sched : List Chunk → List Chunk) (hs : ∀ l, (sched l).Perm l)
    (P : Nat) (hP : 0 < P) (code : ℚ → Int) (hcode : Function.Injective code) (msg : List Nat) (hmsg : ∀ x ∈ msg, x < 256)
    (ds : List Disk) (info : Disk → Info) (hopen : ∀ d ∈ ds, openRead d = .ok (info d)) (hsize : ∀ d ∈ ds, d.size < 2 ^ 63)
    (ns : Nat) (h0 : 0 < ns) (h1 : ns ≤ 32767) (inc : ℚ) (hinc : 0 < inc) (grp : List Disk)
    (hgrp : grp = ds.filter fun d => (info d).ns = ns ∧ (info d).inc = inc) (hne : grp ≠ [])
    (hfmt : ∀ d ∈ grp, (info d).format ≠ 1#16) (N : Nat) (hN : N = (grp.map fun d => (info d).nt).sum)
    (hsz : 3600 + N * (240 + 4 * ns) < 2 ^ 63) (l : List (SetOp K))
    (hl : ∀ d ∈ grp, ∀ k, k < (info d).nt → ∃ y, SetOp.All toR ofR toK ofK l (trace d ns k) y) (out : Disk) :
    ∃ out', processSet (l.map (SetOp.op toR ofR toK ofK)) ops cv zero idx sched P code msg ds (ns, code inc) out = .ok out' ∧
      openRead out' = .ok ⟨ns, N, inc, 5#16, CharEnc.readText (shown msg)⟩ ∧
      out'.size = 3600 + N * (240 + 4 * ns) ∧
      headers out' ns N = (grp.flatMap fun d => headers d ns (info d).nt) ∧
      List.Forall₂ (SetOp.All toR ofR toK ofK l) (grp.flatMap fun d => traces d ns (info d).nt) (traces out' ns N) :=
  process_plain ops cv hcv zero idx hidx sched hs P hP code hcode msg hmsg ds info hopen hsize ns h0 h1 inc hinc grp hgrp hne hfmt N hN hsz
    (queueOk_setOp toR ofR toK ofK l ns h0 h1) hl out

omit [Mul Flt] [Field K] in
/-- A filter in the frequency domain has a result for every trace with a window that fits. -/
theorem freq_gives (fs : ℝ) (m : Nat) (b a : List ℝ) (hb : b.length = m + 1) (ha : a.length = m + 1) (nw c : Nat) (s : List Flt)
    (hs : 1 ≤ s.length) (hlo : oddWindow s.length nw / 2 ≤ centre s.length c) (hhi : centre s.length c + oddWindow s.length nw / 2 < s.length) :
    ∃ y, Windowed toR ofR (Passed fs b a) nw c s y := by
  obtain ⟨-, w1, w2⟩ := oddWindow_spec s.length nw hs
  unfold Windowed
  generalize hn : oddWindow s.length nw = n at w1 w2 hlo hhi ⊢
  generalize hlo' : centre s.length c - n / 2 = lo
  have hl : (((s.drop lo).take n).map toR).length = n := by
    rw [List.length_map, List.length_take, List.length_drop]; omega
  obtain ⟨z, z1, z2, -⟩ := C110_bins_partial fs m b a (((s.drop lo).take n).map toR) (by omega) hb ha
  refine ⟨s.take lo ++ (z.map ofR ++ s.drop (lo + n)), hlo, hhi, z, (C110_only_partial fs m b a _ (by omega) hb ha z).1 z1, ?_, fun i hi => ?_⟩
  · rw [List.length_append, List.length_append, List.length_take, List.length_map, List.length_drop, z2, hl]
    omega
  · by_cases h1 : i < lo
    · rw [if_neg (by omega), List.getElem?_append_left (by rw [List.length_take]; omega), List.getElem?_take_of_lt h1]
    · rw [List.getElem?_append_right (by rw [List.length_take]; omega), List.length_take, Nat.min_eq_left (by omega)]
      by_cases h2 : i < lo + n
      · rw [if_pos ⟨by omega, h2⟩, List.getElem?_append_left (by rw [List.length_map, z2, hl]; omega), List.getElem?_map]
      · rw [if_neg (by omega), List.getElem?_append_right (by rw [List.length_map, z2, hl]; omega), List.length_map, z2, hl,
          List.getElem?_drop, show lo + n + (i - lo - n) = i by omega]

end

/-- C111 fails as the code stands: with no more traces than processes, each of which then plans for its first trace, a planner that leaves zeros makes
zeros of the window of every trace of the output, whatever the files hold; nothing tells of it. -/
theorem C111_lost_refuted (ops : FloatOps F) (cv : Conv F (BitVec 64)) (hcv : ∀ v, cv.toT v = v) (zero : F)
    (idx : List Nat → List Nat) (hidx : IsSortIndex idx) (sched : List Chunk → List Chunk) (hs : ∀ l, (sched l).Perm l)
    (P : Nat) (hP : 0 < P) (code : ℚ → Int) (hcode : Function.Injective code) (msg : List Nat) (hmsg : ∀ x ∈ msg, x < 256)
    (ds : List Disk) (info : Disk → Info) (hopen : ∀ d ∈ ds, openRead d = .ok (info d)) (hsize : ∀ d ∈ ds, d.size < 2 ^ 63)
    (ns : Nat) (h0 : 0 < ns) (h1 : ns ≤ 32767) (inc : ℚ) (hinc : 0 < inc) (grp : List Disk)
    (hgrp : grp = ds.filter fun d => (info d).ns = ns ∧ (info d).inc = inc) (hne : grp ≠ [])
    (hfmt : ∀ d ∈ grp, (info d).format ≠ 1#16) (N : Nat) (hN : N = (grp.map fun d => (info d).nt).sum) (_hNP : N ≤ P)
    (hsz : 3600 + N * (240 + 4 * ns) < 2 ^ 63) (fs : ℝ) (m : Nat) (b a : List ℝ) (hb : b.length = m + 1) (ha : a.length = m + 1)
    (nw c : Nat) (hlo : oddWindow ns nw / 2 ≤ centre ns c) (hhi : centre ns c + oddWindow ns nw / 2 < ns) (out : Disk) :
    ∃ out', processSet [freqOp toR ofR ⟨some (List.replicate (oddWindow ns nw) 0), none⟩ fs m b a nw c] ops cv zero idx sched P code msg ds
        (ns, code inc) out = .ok out' ∧
      ∀ k, k < N → ∀ i, centre ns c - oddWindow ns nw / 2 ≤ i → i < centre ns c - oddWindow ns nw / 2 + oddWindow ns nw →
        (trace out' ns k)[i]? = some (ofR 0) := by
  have hlen : ∀ d k, (trace d ns k).length = ns := fun d k => by unfold trace; simp
  have hq : QueueOk [freqOp toR ofR ⟨some (List.replicate (oddWindow ns nw) 0), none⟩ fs m b a nw c] ns
      (fun s => ∃ y, Windowed toR ofR (fun w z => z = List.replicate w.length 0) nw c s y)
      (fun s y => ∃ z, Windowed toR ofR (fun w z => z = List.replicate w.length 0) nw c s z ∧ z = y) := by
    refine queueOk_cons (D2 := fun _ => True) (byTrace_freq toR ofR _ fs m b a nw c ns h0 h1 _ (fun w hw => ?_))
      (fun n t hn h1 h2 _ => queueOk_nil ns n t hn h1 h2 (fun _ _ => trivial)) (fun s hs => ⟨hs, fun _ _ => trivial⟩)
    obtain ⟨-, w1, -⟩ := oddWindow_spec ns nw h0
    have h := (C110_plan_refuted fs m b a hb ha w (by omega)).2
    rw [hw] at h
    exact ⟨_, h, by rw [List.length_replicate, hw], by rw [hw]⟩
  obtain ⟨out', e1, -, -, -, e5⟩ := process_plain ops cv hcv zero idx hidx sched hs P hP code hcode msg hmsg ds info hopen hsize ns h0 h1 inc
    hinc grp hgrp hne hfmt N hN hsz hq (fun d _ k _ => by
      refine ⟨(trace d ns k).take (centre ns c - oddWindow ns nw / 2) ++ (List.replicate (oddWindow ns nw) (ofR 0) ++
        (trace d ns k).drop (centre ns c - oddWindow ns nw / 2 + oddWindow ns nw)), ?_⟩
      obtain ⟨w0, w1, w2⟩ := oddWindow_spec ns nw h0
      have hl := hlen d k
      generalize trace d ns k = s at hl
      unfold Windowed
      rw [hl]
      refine ⟨hlo, hhi, _, rfl, ?_, fun i hi => ?_⟩
      · rw [List.length_append, List.length_append, List.length_take, List.length_replicate, List.length_drop, hl]
        omega
      · have hw : (((s.drop (centre ns c - oddWindow ns nw / 2)).take (oddWindow ns nw)).map toR).length = oddWindow ns nw := by
          rw [List.length_map, List.length_take, List.length_drop, hl]; omega
        rw [hw]
        by_cases h1 : i < centre ns c - oddWindow ns nw / 2
        · rw [if_neg (by omega), List.getElem?_append_left (by rw [List.length_take]; omega), List.getElem?_take_of_lt h1]
        · rw [List.getElem?_append_right (by rw [List.length_take]; omega), List.length_take, Nat.min_eq_left (by omega)]
          by_cases h2 : i < centre ns c - oddWindow ns nw / 2 + oddWindow ns nw
          · rw [if_pos ⟨by omega, h2⟩, List.getElem?_append_left (by rw [List.length_replicate]; omega),
              List.getElem?_replicate_of_lt (by omega), List.getElem?_replicate_of_lt (by omega)]
            rfl
          · rw [if_neg (by omega), List.getElem?_append_right (by rw [List.length_replicate]; omega), List.length_replicate,
              List.getElem?_drop]
            congr 1
            omega) out
  refine ⟨out', e1, fun k hk i hi1 hi2 => ?_⟩
  obtain ⟨w0, w1, w2⟩ := oddWindow_spec ns nw h0
  rw [List.forall₂_iff_get] at e5
  have hlt : (traces out' ns N).length = N := by unfold traces; simp
  obtain ⟨y, hy, he⟩ := e5.2 k (by rw [e5.1, hlt]; exact hk) (by rw [hlt]; exact hk)
  have hy2 : (traces out' ns N).get ⟨k, by rw [hlt]; exact hk⟩ = trace out' ns k := by
    unfold traces
    simp
  rw [hy2] at he
  subst he
  have hsl : ((List.flatMap (fun d => traces d ns (info d).nt) grp).get ⟨k, by rw [e5.1, hlt]; exact hk⟩).length = ns := by
    have hm := List.get_mem (List.flatMap (fun d => traces d ns (info d).nt) grp) ⟨k, by rw [e5.1, hlt]; exact hk⟩
    obtain ⟨d, -, hd⟩ := List.mem_flatMap.1 hm
    obtain ⟨k', -, hk'⟩ := List.mem_map.1 hd
    rw [← hk']
    exact hlen d k'
  obtain ⟨-, -, z, hz, -, hz2⟩ := hy
  rw [hsl] at hz hz2
  rw [hz2 i (by omega), if_pos ⟨hi1, hi2⟩, hz, List.getElem?_replicate_of_lt]
  · rfl
  · rw [List.length_map, List.length_take, List.length_drop, hsl]
    omega

section
local instance exMulF : Mul Flt := ⟨fun a b => ⟨a.bits * b.bits⟩⟩

/-- Two files of two traces and one on two processes: a window of three of the four samples filtered in the frequency domain. -/
example (toK : Flt → ℚ) (ofK : ℚ → Flt) :
    let l : List (SetOp ℚ) := [.freq 1 1 [1, 1] [1, 0] 0 0]
    ∃ out' : Disk, processSet (l.map (SetOp.op toR ofR toK ofK)) exOps exConvT 0
      insIndex List.reverse 2 (fun q : ℚ => (Encodable.encode q : Int)) [] [opFile 2 7#8, opFile 1 7#8]
      (4, (Encodable.encode (exInc false) : Int)) ⟨0, fun _ => 0#8⟩ = .ok out' ∧ out'.size = 3600 + 3 * (240 + 4 * 4) := by
  intro l
  obtain ⟨t1, o1⟩ := opFile_open (n := 2) 7#8 (by decide)
  obtain ⟨t2, o2⟩ := opFile_open (n := 1) 7#8 (by decide)
  let info : Disk → Info := fun d => okOr ⟨0, 0, 0, 0#16, []⟩ (openRead d)
  have i1 : info (opFile 2 7#8) = _ := congrArg (okOr _) o1
  have i2 : info (opFile 1 7#8) = _ := congrArg (okOr _) o2
  simp only [okOr] at i1 i2
  obtain ⟨out', h1, -, h3, -⟩ := C111_files_partial toR ofR toK ofK exOps exConvT (fun _ => rfl) 0 insIndex insIndex_sorts
    List.reverse (fun l => List.reverse_perm l) 2 (by omega) _ exCode [] (by simp) [opFile 2 7#8, opFile 1 7#8] info
    (by simp only [List.mem_cons, List.not_mem_nil, or_false]
        rintro d (rfl | rfl)
        · rw [i1, o1]
        · rw [i2, o2])
    (by simp only [List.mem_cons, List.not_mem_nil, or_false]
        rintro d (rfl | rfl)
        · show plainSz 2 4 < _; decide
        · show plainSz 1 4 < _; decide)
    4 (by omega) (by omega) (exInc false) exInc_pos [opFile 2 7#8, opFile 1 7#8]
    (by simp [i1, i2]) (by simp)
    (by simp only [List.mem_cons, List.not_mem_nil, or_false]
        rintro d (rfl | rfl)
        · rw [i1]; show (5#16 : BitVec 16) ≠ 1#16; decide
        · rw [i2]; show (5#16 : BitVec 16) ≠ 1#16; decide)
    3 (by simp [i1, i2]) (by omega) l (fun d _ k _ => by
      have hl : (trace d 4 k).length = 4 := by unfold trace; simp
      obtain ⟨y, hy⟩ := freq_gives toR ofR 1 1 [1, 1] [1, 0] rfl rfl 0 0 (trace d 4 k) (by omega) (by rw [hl]; decide) (by rw [hl]; decide)
      exact ⟨y, y, ⟨rfl, rfl, hy⟩, rfl⟩) ⟨0, fun _ => 0#8⟩
  exact ⟨out', h1, h3⟩

end

end Verif.Flow
