import Verif.Props.SortTool
import Verif.Props.Process

/-!
C92: sorts and operations on single traces together, through to the output of a set.
-/

namespace Verif.Flow
open Verif.Rules Verif.Params Verif.Files Verif.Endian Verif.Layout Verif.FP Verif.Sort Verif.Scalar
open Verif.Extremes (be16 be32)

theorem leadingOps_map (l : List BlockOp) (late : List Queued) (h : ∀ f m, late ≠ .single f :: m) :
    leadingOps (l.map .single ++ late) = l := by
  induction l with
  | nil =>
    cases late with
    | nil => rfl
    | cons x m =>
      cases x with
      | sort s => rfl
      | single f => exact absurd rfl (h f m)
  | cons a l ih => exact congrArg (a :: ·) ih

theorem leadingOps_all (l : List BlockOp) : leadingOps (l.map .single) = l := by
  have := leadingOps_map l [] (by simp)
  rwa [List.append_nil] at this

theorem singles_first (l : List BlockOp) : ∀ (s : List Rec → List Rec) m, l.map Queued.single ≠ .sort s :: m := by
  cases l <;> simp

theorem singles_late {l : List BlockOp} (hl : l ≠ []) (late : List Queued) :
    ∀ (s : List Rec → List Rec) m, l.map Queued.single ++ late ≠ .sort s :: m := by
  cases l with
  | nil => exact absurd rfl hl
  | cons a l => simp

/-- A run as in `Job`, with files in either format. -/
structure Sorting (o : OffFn) (ty : SortType) (srt : List Rec → List Rec) (srtp : List (Nat × Nat) → List (Nat × Nat))
    (idx : List Nat → List Nat) (sched : List Chunk → List Chunk) (P : Nat) (code : ℚ → Int) (msg : List Nat)
    (ds : List Disk) (info : Disk → Info) (ns : Nat) (inc : ℚ) (grp : List Disk) (N : Nat) : Prop where
  hsrt : IsSort (fun a b => getComp o ty a.tr b.tr) srt
  hsrtp : IsSort pairLt srtp
  hidx : IsSortIndex idx
  hsched : ∀ l, (sched l).Perm l
  hP : 0 < P
  hcode : Function.Injective code
  hmsg : ∀ x ∈ msg, x < 256
  hopen : ∀ d ∈ ds, openRead d = .ok (info d)
  hsize : ∀ d ∈ ds, d.size < 2 ^ 63
  h0 : 0 < ns
  h1 : ns ≤ 32767
  hinc : 0 < inc
  hgrp : grp = ds.filter fun d => (info d).ns = ns ∧ (info d).inc = inc
  hne : grp ≠ []
  hN : N = (grp.map fun d => (info d).nt).sum
  hsz : 3600 + N * (240 + 4 * ns) < 2 ^ 63
  hnum : (N + 1) * grp.length < 2 ^ 63
  hmany : (P = 1 ∧ 3 ≤ N) ∨ ∃ n, (∀ d ∈ grp, (info d).nt = n) ∧ 4 ≤ grp.length * (n / P)

variable {o : OffFn} {ty : SortType} {srt : List Rec → List Rec} {srtp : List (Nat × Nat) → List (Nat × Nat)}
  {idx : List Nat → List Nat} {sched : List Chunk → List Chunk} {P : Nat} {code : ℚ → Int} {msg : List Nat}
  {ds : List Disk} {info : Disk → Info} {ns : Nat} {inc : ℚ} {grp : List Disk} {N : Nat}

theorem Job.sorting (j : Job o ty srt srtp idx sched P code msg ds info ns inc grp N) :
    Sorting o ty srt srtp idx sched P code msg ds info ns inc grp N :=
  ⟨j.hsrt, j.hsrtp, j.hidx, j.hsched, j.hP, j.hcode, j.hmsg, j.hopen, j.hsize, j.h0, j.h1, j.hinc, j.hgrp, j.hne, j.hN, j.hsz,
    j.hnum, j.hmany⟩

/-- What comes of sorts and then operations, for files in either format. -/
theorem queue_either (j : Sorting o ty srt srtp idx sched P code msg ds info ns inc grp N) (dflt : Rec)
    (pre : List (List Rec → List Rec)) (hpre : ∀ s ∈ pre, ∃ o ty, IsSort (fun a b => getComp o ty a.tr b.tr) s)
    {queue : List BlockOp} {D : List Flt → Prop} {R : List Flt → List Flt → Prop} (hq : QueueOk queue ns D R)
    (hD : ∀ d ∈ grp, ∀ k, k < (info d).nt → D (seen (decide ((info d).format = 1#16)) d ns k)) :
    ∃ (n0 : Nat) (src : List (Nat × Nat)), src.Perm (allTraces (grp.map fun d => (info d).nt)) ∧
      (src.map (traceOf grp ns)).Pairwise (fun a b => getComp o ty b a = false) ∧ ∀ fuel, n0 ≤ fuel → ∀ out : Disk,
      (∀ out', queueSet ((pre ++ [srt]).map .sort ++ queue.map .single) srtp dflt fuel idx sched P code msg ds (ns, code inc) out =
          .ok out' →
        out'.size = 3600 + N * (240 + 4 * ns) ∧ openRead out' = .ok ⟨ns, N, inc, 5#16, CharEnc.readText (shown msg)⟩ ∧
        ∀ (p c k : Nat), src[p]? = some (c, k) → ∃ d, grp[c]? = some d ∧ HdrKept ns d k out' p ∧
          R (seen (decide ((info d).format = 1#16)) d ns k) (trace out' ns p)) ∧
      ((∀ d ∈ grp, (info d).format = 1#16 → ∀ k, k < (info d).nt → ∀ s, s < ns → Quiet (native d ns k s)) → ∃ out', ∀ fuel', n0 ≤ fuel' →
        queueSet ((pre ++ [srt]).map .sort ++ queue.map .single) srtp dflt fuel' idx sched P code msg ds (ns, code inc) out =
          .ok out') := by
  obtain ⟨n0, src, fs, hG, hib, hk, ⟨iv, hiv⟩, hrun, g1, g2, g3⟩ := sort_prep o ty srt j.hsrt srtp j.hsrtp dflt pre hpre idx sched P
    j.hP code j.hcode msg ds info j.hopen j.hsize ns j.h0 j.h1 inc grp j.hgrp j.hne N j.hN j.hsz j.hnum j.hmany
  obtain ⟨i1, i2, i3, i4⟩ := inc_again (iv := iv) (by rw [← hiv]; exact j.hinc)
  rw [← hiv] at i1 i2
  have h1 := j.h1
  have hmem : 40 + (240 + 4 * ns) + 2 * paramMem wr + 2 * (4 * ns) ≤ 2 ^ 30 := by rw [wr_mem]; norm_num; omega
  have hD' : ∀ f ∈ fs, ∀ r, r < P → ∀ k ∈ f.ilst r, D (seen f.ibm f.disk ns k) := by
    intro f hf r hr k hk'
    rw [(hib f hf).2]
    exact hD _ (hib f hf).1 k (hk f hf r hr k hk')
  refine ⟨n0, src, g1, g2, fun fuel hf out => ⟨fun out' he => ?_, fun hquiet => ?_⟩⟩
  · rw [hrun fuel hf _ out (singles_first queue), leadingOps_all] at he
    obtain ⟨e2, e3, e4⟩ := output_either dbl asInt (fun _ => rfl) 0 wr wr_ok (Or.inr convertible) idx j.hidx sched j.hsched hG hq hD'
      hmem i1 (by omega) (by omega) i2 j.hmsg out out' he
    refine ⟨e2, ?_, fun p c k hp => ?_⟩
    · rw [BitVec.ofInt_toInt, ← hiv] at e3
      exact e3
    · obtain ⟨f, hf, e5, r, hr, i, e6, e7⟩ := g3 p c k hp
      have := e4 f hf r hr i k p e6 e7
      refine ⟨f.disk, e5, this.hdrKept, ?_⟩
      rw [← (hib f hf).2]
      exact this.samples
  · obtain ⟨o', e⟩ := output_ok dbl asInt (fun _ => rfl) 0 wr wr_ok (Or.inr convertible) idx j.hidx sched j.hsched hG hq hD' (by
      intro f hf r hr k hk' hi s hs
      rw [(hib f hf).2, decide_eq_true_iff] at hi
      exact hquiet _ (hib f hf).1 hi k (hk f hf r hr k hk') s hs) hmem i1 (by omega) (by omega) i2 j.hmsg out
    refine ⟨o', fun fuel' hf' => ?_⟩
    rw [hrun fuel' hf' _ out (singles_first queue), leadingOps_all, e]

section
variable [Mul Flt] {K : Type} [Field K] (toK : Flt → K) (ofK : K → Flt)

/-- **C92**. Sorts, then operations on single traces (`set.sort(…); set.taper(…); …; set.output(…)`), from input bytes to output
bytes: the output opens with the number of samples, the interval and the number of traces of the files and the text given.
Its traces are those of the files, each once (`src` says for each where it is from), in the order of the last sort asked for,
traces that compare equal by trace number and then by file, whatever the sorts before it; the header of a trace is kept except
for the representation of coordinates, and its samples are what the operations, in the order in which they were asked for,
make of the samples of the same trace in the file.

What is missing: sorts after an operation (`C92_late_refuted`, `C92_ignored_refuted`), files in the IBM format
(`C92_ibm_refuted`), and what is missing in `C79_sorted_partial` and `C90_operations_partial`. -/
theorem C92_queue_partial (j : Job o ty srt srtp idx sched P code msg ds info ns inc grp N) (dflt : Rec)
    (pre : List (List Rec → List Rec)) (hpre : ∀ s ∈ pre, ∃ o ty, IsSort (fun a b => getComp o ty a.tr b.tr) s)
    (l : List (TraceOp K)) (hl : ∀ d ∈ grp, ∀ k, k < (info d).nt → ∃ y, GivesAll toK ofK l (trace d ns k) y) :
    ∃ (n0 : Nat) (src : List (Nat × Nat)), ∀ out : Disk, ∃ out' : Disk,
      (∀ fuel, n0 ≤ fuel → queueSet ((pre ++ [srt]).map .sort ++ (l.map (TraceOp.op toK ofK)).map .single) srtp dflt fuel idx sched
        P code msg ds (ns, code inc) out = .ok out') ∧
      out'.size = 3600 + N * (240 + 4 * ns) ∧ openRead out' = .ok ⟨ns, N, inc, 5#16, CharEnc.readText (shown msg)⟩ ∧
      src.Perm (allTraces (grp.map fun d => (info d).nt)) ∧
      (src.map (traceOf grp ns)).Pairwise (fun a b => getComp o ty b a = false) ∧
      ∀ (p c k : Nat), src[p]? = some (c, k) → ∃ d, grp[c]? = some d ∧ HdrKept ns d k out' p ∧
        GivesAll toK ofK l (trace d ns k) (trace out' ns p) := by
  have hseen : ∀ d ∈ grp, ∀ k, seen (decide ((info d).format = 1#16)) d ns k = trace d ns k := by
    intro d hd k
    rw [decide_eq_false (j.hfmt d hd)]; rfl
  obtain ⟨n0, src, g1, g2, g3⟩ := queue_either j.sorting dflt pre hpre (queueOk toK ofK l ns j.h0 j.h1)
    (fun d hd k hk => by rw [hseen d hd]; exact hl d hd k hk)
  refine ⟨n0, src, fun out => ?_⟩
  obtain ⟨out', e⟩ := (g3 n0 (Nat.le_refl _) out).2 fun d hd hf => absurd hf (j.hfmt d hd)
  obtain ⟨e1, e2, e3⟩ := (g3 n0 (Nat.le_refl _) out).1 out' (e n0 (Nat.le_refl _))
  refine ⟨out', e, e1, e2, g1, g2, fun p c k hp => ?_⟩
  obtain ⟨d, q1, q2, q3⟩ := e3 p c k hp
  refine ⟨d, q1, q2, ?_⟩
  rw [hseen d (List.mem_of_getElem? q1)] at q3
  exact q3

/-- C92 fails for files in the IBM format: whatever is sorted, every trace of such a file has in the output what the
operations make of a trace of halves, although it is in its place and its header is right. (Without operations, as in the
sort tool, the trace has halves.) The program does end if the conversion of the samples is defined. -/
theorem C92_ibm_refuted (j : Sorting o ty srt srtp idx sched P code msg ds info ns inc grp N) (dflt : Rec)
    (pre : List (List Rec → List Rec)) (hpre : ∀ s ∈ pre, ∃ o ty, IsSort (fun a b => getComp o ty a.tr b.tr) s)
    (hfmt : ∀ d ∈ grp, (info d).format = 1#16) (l : List (TraceOp K)) (y : List Flt)
    (hl : GivesAll toK ofK l (List.replicate ns ⟨0x3F000000#32⟩) y) :
    ∃ (n0 : Nat) (src : List (Nat × Nat)), src.Perm (allTraces (grp.map fun d => (info d).nt)) ∧
      (src.map (traceOf grp ns)).Pairwise (fun a b => getComp o ty b a = false) ∧ ∀ fuel, n0 ≤ fuel → ∀ out : Disk,
      (∀ out', queueSet ((pre ++ [srt]).map .sort ++ (l.map (TraceOp.op toK ofK)).map .single) srtp dflt fuel idx sched
          P code msg ds (ns, code inc) out = .ok out' →
        (∀ (p c k : Nat), src[p]? = some (c, k) → ∃ d, grp[c]? = some d ∧ HdrKept ns d k out' p) ∧
        ∀ p, p < N → trace out' ns p = y) ∧
      ((∀ d ∈ grp, ∀ k, k < (info d).nt → ∀ s, s < ns → Quiet (native d ns k s)) → ∃ out',
        queueSet ((pre ++ [srt]).map .sort ++ (l.map (TraceOp.op toK ofK)).map .single) srtp dflt fuel idx sched
          P code msg ds (ns, code inc) out = .ok out') := by
  have hseen : ∀ d ∈ grp, ∀ k, seen (decide ((info d).format = 1#16)) d ns k = List.replicate ns ⟨0x3F000000#32⟩ := by
    intro d hd k
    rw [decide_eq_true (hfmt d hd)]; rfl
  obtain ⟨n0, src, g1, g2, g3⟩ := queue_either j dflt pre hpre (queueOk toK ofK l ns j.h0 j.h1)
    (fun d hd k _ => by rw [hseen d hd]; exact ⟨y, hl⟩)
  refine ⟨n0, src, g1, g2, fun fuel hf out => ⟨fun out' he => ?_, fun hquiet => ?_⟩⟩
  · obtain ⟨-, -, e3⟩ := (g3 fuel hf out).1 out' he
    refine ⟨fun p c k hp => ?_, fun p hp => ?_⟩
    · obtain ⟨d, q1, q2, -⟩ := e3 p c k hp
      exact ⟨d, q1, q2⟩
    · have hlen : src.length = N := by rw [g1.length_eq, allTraces_length, j.hN]
      obtain ⟨⟨c, k⟩, hck⟩ : ∃ x, src[p]? = some x := ⟨_, List.getElem?_eq_getElem (by omega)⟩
      obtain ⟨d, q1, -, q3⟩ := e3 p c k hck
      rw [hseen d (List.mem_of_getElem? q1)] at q3
      exact givesAll_unique toK ofK l q3 hl
  · obtain ⟨out', e⟩ := (g3 fuel hf out).2 fun d hd _ => hquiet d hd
    exact ⟨out', e fuel hf⟩

/-- C92 fails for every sort that is asked for after an operation: with a taper, a gain control or a filter before it the sort is
left out, for any files, any number of processes and any comparison. The operations are carried out and the traces
stay in the order of the files. -/
theorem C92_late_refuted (idx : List Nat → List Nat) (hidx : IsSortIndex idx) (sched : List Chunk → List Chunk)
    (hs : ∀ l, (sched l).Perm l)
    (P : Nat) (hP : 0 < P) (code : ℚ → Int) (hcode : Function.Injective code) (msg : List Nat) (hmsg : ∀ x ∈ msg, x < 256)
    (ds : List Disk) (info : Disk → Info) (hopen : ∀ d ∈ ds, openRead d = .ok (info d)) (hsize : ∀ d ∈ ds, d.size < 2 ^ 63)
    (ns : Nat) (h0 : 0 < ns) (h1 : ns ≤ 32767) (inc : ℚ) (hinc : 0 < inc) (grp : List Disk)
    (hgrp : grp = ds.filter fun d => (info d).ns = ns ∧ (info d).inc = inc) (hne : grp ≠ [])
    (hfmt : ∀ d ∈ grp, (info d).format ≠ 1#16) (N : Nat) (hN : N = (grp.map fun d => (info d).nt).sum)
    (hsz : 3600 + N * (240 + 4 * ns) < 2 ^ 63) (l : List (TraceOp K)) (hl0 : l ≠ [])
    (hl : ∀ d ∈ grp, ∀ k, k < (info d).nt → ∃ y, GivesAll toK ofK l (trace d ns k) y) (out : Disk) :
    ∃ out', (∀ (srtp : List (Nat × Nat) → List (Nat × Nat)) (dflt : Rec) (fuel : Nat) (s : List Rec → List Rec) (late : List Queued),
        queueSet ((l.map (TraceOp.op toK ofK)).map .single ++ .sort s :: late) srtp dflt fuel idx sched P code msg ds (ns, code inc)
          out = .ok out') ∧
      openRead out' = .ok ⟨ns, N, inc, 5#16, CharEnc.readText (shown msg)⟩ ∧
      out'.size = 3600 + N * (240 + 4 * ns) ∧
      List.Forall₂ (fun x p => HdrKept ns x.1 x.2 out' p ∧ GivesAll toK ofK l (trace x.1 ns x.2) (trace out' ns p))
        (grp.flatMap fun d => (List.range (info d).nt).map (Prod.mk d)) (List.range N) := by
  obtain ⟨sts, fs, hG, hib, c1, c2, c3, c4, -, -, hplaces, hrec, iv, hiv⟩ := group_prep P hP code hcode ds info hopen hsize ns
    h0 h1 inc grp hgrp hne N hN hsz
  obtain ⟨i1, i2, i3, i4⟩ := inc_again (iv := iv) (by rw [← hiv]; exact hinc)
  rw [← hiv] at i1 i2
  obtain ⟨o', e1, e2, e3, e4⟩ := output_specQ dbl asInt (fun _ => rfl) 0 wr wr_ok (Or.inr convertible) idx hidx sched hs hG
    (no_ibm hfmt hib) (queueOk toK ofK l ns h0 h1) (by
      intro f hf r hr k hk
      obtain ⟨g1, g2⟩ := (mem_sources hrec f.disk k).2 ⟨f, hf, rfl, r, hr, hk⟩
      exact hl _ g1 k g2)
    (by rw [wr_mem]; norm_num; omega) i1 (by omega) (by omega) i2 hmsg out
  refine ⟨o', fun srtp dflt fuel s late => ?_, ?_, e2, ?_⟩
  · have hq := leadingSorts_map [] ((l.map (TraceOp.op toK ofK)).map .single ++ .sort s :: late)
      (singles_late (by simpa using hl0) _)
    rw [List.map_nil, List.nil_append] at hq
    obtain ⟨l1, l2⟩ := hq
    have l3 := leadingOps_map (l.map (TraceOp.op toK ofK)) (.sort s :: late) (by simp)
    cases hgl : grp with
    | nil => exact absurd hgl hne
    | cons d0 m =>
      have hd : d0 ∈ grp := by rw [hgl]; simp
      rw [hgrp, List.mem_filter] at hd
      obtain ⟨g2, g3⟩ : (info d0).ns = ns ∧ (info d0).inc = inc := by simpa using hd.2
      unfold queueSet
      rw [c1, Res.ok_bind, c2, Res.ok_bind, ctor_copy, Res.ok_bind, ctor_sort, Res.ok_bind, rule_sorted ⟨s, by simp⟩,
        Res.ok_bind, c3, hgl, List.map_cons, l1, l2, l3]
      rw [hgl, List.map_cons] at c4
      simp only [g2, g3, c4, placed, Res.ok_bind]
      exact e1
  · rw [BitVec.ofInt_toInt, ← hiv] at e3
    exact e3
  · exact sources_places hG.lengths hplaces hrec fun f hf r hr i k k' h1 h2 =>
      ⟨(e4 f hf r hr i k k' h1 h2).hdrKept, (e4 f hf r hr i k k' h1 h2).samples⟩

end

/-- C92 fails likewise for a sort that is asked for after a sort and an operation: whatever the outcome is, it is that of the
same calls without the second sort and all that follows it. -/
theorem C92_ignored_refuted (s0 s : List Rec → List Rec) (pre : List (List Rec → List Rec)) (f : BlockOp) (l : List BlockOp)
    (late : List Queued) (srtp : List (Nat × Nat) → List (Nat × Nat)) (dflt : Rec) (fuel : Nat)
    (idx : List Nat → List Nat) (sched : List Chunk → List Chunk) (P : Nat) (code : ℚ → Int) (msg : List Nat)
    (ds : List Disk) (k : Key) (out : Disk) :
    queueSet ((s0 :: pre).map .sort ++ ((f :: l).map .single ++ .sort s :: late)) srtp dflt fuel idx sched P code msg ds k out =
      queueSet ((s0 :: pre).map .sort ++ (f :: l).map .single) srtp dflt fuel idx sched P code msg ds k out := by
  obtain ⟨a1, a2⟩ := leadingSorts_map (s0 :: pre) ((f :: l).map .single ++ .sort s :: late) (singles_late (by simp) _)
  obtain ⟨b1, b2⟩ := leadingSorts_map (s0 :: pre) ((f :: l).map .single) (singles_first _)
  have r1 : queueRule sr.map ((s0 :: pre).map .sort ++ ((f :: l).map .single ++ .sort s :: late)) cr = .ok wr :=
    rule_sorted ⟨s0, by simp⟩
  have r2 : queueRule sr.map ((s0 :: pre).map .sort ++ (f :: l).map .single) cr = .ok wr := rule_sorted ⟨s0, by simp⟩
  unfold queueSet
  simp only [ctor_copy, ctor_sort, Res.ok_bind, r1, r2, a1, a2, b1, b2]
  rw [leadingOps_map (f :: l) (.sort s :: late) (by simp), leadingOps_all]

/-! ### Eight traces -/

/-- Eight traces of four samples, source x falling from 7 to 0, with the format code `c` and all bytes of samples `v`. -/
def mixFile (c v : Byte) : Disk :=
  ⟨plainSz 8 4, fun x => if x = 3221 then 4#8 else if x = 3216 then 0x07#8 else if x = 3217 then 0xd0#8
    else if x = 3225 then c else if x < 3600 then 0#8
    else if 240 ≤ (x - 3600) % 256 then v else if (x - 3600) % 256 = 75 then BitVec.ofNat 8 (7 - (x - 3600) / 256) else 0#8⟩

theorem mixFile_open (c v : Byte) :
    ∃ t, openRead (mixFile c v) = .ok ⟨4, 8, exInc false, fromBE16 0#8 c, t⟩ := by
  refine ⟨CharEnc.readText (List.replicate 3200 0), ?_⟩
  obtain ⟨ty, h1, h2⟩ := openRead_spec (mixFile c v) 4 8 2000 (List.replicate 3200 0) (by omega) rfl (by decide)
    (by show fromBE16 0#8 4#8 = _; decide) (by show fromBE16 0x07#8 0xd0#8 = _; decide)
    List.length_replicate (fun x hx => by rw [List.eq_of_mem_replicate hx]; omega)
    (fun i hi => by
      rw [List.getElem?_replicate_of_lt hi]
      show (if i = 3221 then 4#8 else if i = 3216 then 0x07#8 else if i = 3217 then 0xd0#8
        else if i = 3225 then c else if i < 3600 then 0#8 else _) = _
      rw [if_neg (by omega), if_neg (by omega), if_neg (by omega), if_neg (by omega), if_pos (by omega)]
      rfl)
  have : ty = fromBE16 0#8 c := by rw [h2]; rfl
  rw [h1, this]; rfl

theorem mixFile_sample (c v : Byte) {x : Nat} (h : 3600 ≤ x) (h' : 240 ≤ (x - 3600) % 256) : (mixFile c v).byte x = v := by
  show (if x = 3221 then 4#8 else if x = 3216 then 0x07#8 else if x = 3217 then 0xd0#8
    else if x = 3225 then c else if x < 3600 then 0#8 else if 240 ≤ (x - 3600) % 256 then v else _) = v
  rw [if_neg (by omega), if_neg (by omega), if_neg (by omega), if_neg (by omega), if_neg (by omega), if_pos h']

theorem mixFile_native (c v : Byte) (k s : Nat) (hs : s < 4) : native (mixFile c v) 4 k s = fromBE32 v v v v := by
  have h : ∀ j, j < 4 → (mixFile c v).byte (taddr 4 k + 240 + 4 * s + j) = v := by
    intro j hj
    unfold taddr
    exact mixFile_sample c v (by omega) (by omega)
  unfold native
  rw [h 3 (by omega), h 2 (by omega), h 1 (by omega)]
  have := h 0 (by omega)
  rw [Nat.add_zero] at this
  rw [this]

theorem mixFile_trace (c v : Byte) (k : Nat) : trace (mixFile c v) 4 k = List.replicate 4 ⟨fromBE32 v v v v⟩ := by
  have h : ∀ s, s < 4 → dsamp (mixFile c v) 4 k s = fromBE32 v v v v := by
    intro s hs
    have h : ∀ j, j < 4 → (mixFile c v).byte (taddr 4 k + 240 + 4 * s + j) = v := by
      intro j hj
      unfold taddr
      exact mixFile_sample c v (by omega) (by omega)
    unfold dsamp dword
    unfold taddr at h
    rw [h 3 (by omega), h 2 (by omega), h 1 (by omega)]
    have := h 0 (by omega)
    rw [Nat.add_zero] at this
    rw [this]
  unfold trace
  rw [List.map_congr_left fun s hs => by rw [h s (List.mem_range.1 hs)]]
  rfl

theorem mix_sorting (c v : Byte) : ∃ t, Sorting Sort.off 35 (keySort fun a b => getComp Sort.off 35 a.tr b.tr) (keySort pairLt)
    insIndex List.reverse 2 (fun q : ℚ => (Encodable.encode q : Int)) [] [mixFile c v]
    (fun _ => ⟨4, 8, exInc false, fromBE16 0#8 c, t⟩) 4 (exInc false) [mixFile c v] 8 := by
  obtain ⟨t, ht⟩ := mixFile_open c v
  exact ⟨t, {
    hsrt := comp_sorts Sort.off 35, hsrtp := pair_sorts, hidx := insIndex_sorts, hsched := fun l => List.reverse_perm l
    hP := by omega, hcode := exCode, hmsg := by simp
    hopen := by simpa using ht
    hsize := by simp only [List.mem_singleton]; rintro d rfl; show plainSz 8 4 < _; decide
    h0 := by omega
    h1 := by omega
    hinc := exInc_pos
    hgrp := by simp
    hne := by simp
    hN := by simp
    hsz := by omega
    hnum := by rw [List.length_singleton]; norm_num
    hmany := Or.inr ⟨8, fun _ _ => rfl, by rw [List.length_singleton]⟩ }⟩

theorem mix_job (v : Byte) : ∃ t, Job Sort.off 35 (keySort fun a b => getComp Sort.off 35 a.tr b.tr) (keySort pairLt)
    insIndex List.reverse 2 (fun q : ℚ => (Encodable.encode q : Int)) [] [mixFile 5#8 v]
    (fun _ => ⟨4, 8, exInc false, 5#16, t⟩) 4 (exInc false) [mixFile 5#8 v] 8 := by
  obtain ⟨t, j⟩ := mix_sorting 5#8 v
  have h5 : fromBE16 0#8 5#8 = 5#16 := by decide
  rw [h5] at j
  exact ⟨t, ⟨j.hsrt, j.hsrtp, j.hidx, j.hsched, j.hP, j.hcode, j.hmsg, j.hopen, j.hsize, j.h0, j.h1, j.hinc, j.hgrp, j.hne,
    fun _ _ => by show (5#16 : BitVec 16) ≠ 1#16; decide, j.hN, j.hsz, j.hnum, j.hmany⟩⟩

section

local instance exMulQ : Mul Flt := ⟨fun a b => ⟨a.bits * b.bits⟩⟩

theorem mix_taper (x : BitVec 32) (hx : ¬ Mute ⟨x⟩) (toK : Flt → ℚ) (ofK : ℚ → Flt) :
    GivesAll toK ofK ([.taper (fun i _ => ⟨BitVec.ofNat 32 i⟩) 2 1] : List (TraceOp ℚ)) (List.replicate 4 ⟨x⟩)
      [⟨x * 1#32⟩, ⟨x * 2#32⟩, ⟨x⟩, ⟨x * 1#32⟩] := by
  refine ⟨[⟨x * 1#32⟩, ⟨x * 2#32⟩, ⟨x⟩, ⟨x * 1#32⟩], ⟨0, fun i h => by omega, ⟨_, rfl, hx⟩, by rw [List.length_replicate]; omega, by rw [List.length_replicate]; omega, rfl, ?_⟩, rfl⟩
  intro i y hy
  match i, hy with
  | 0, hy => cases hy; rfl
  | 1, hy => cases hy; rfl
  | 2, hy => cases hy; rfl
  | 3, hy => cases hy; rfl

/-- The eight traces sorted by offset, then by source x (the sort before does not count), and tapered, on two processes. -/
example (toK : Flt → ℚ) (ofK : ℚ → Flt) : ∃ (n0 : Nat) (out' : Disk), ∀ fuel, n0 ≤ fuel →
    queueSet ([.sort (keySort fun a b => getComp Sort.off 4 a.tr b.tr), .sort (keySort fun a b => getComp Sort.off 35 a.tr b.tr)] ++
        (([.taper (fun i _ => ⟨BitVec.ofNat 32 i⟩) 2 1] : List (TraceOp ℚ)).map (TraceOp.op toK ofK)).map .single)
      (keySort pairLt) ⟨⟨0, 0, 0, 0, 0, 0, 0, 0⟩, 0, []⟩ fuel insIndex List.reverse 2 (fun q : ℚ => (Encodable.encode q : Int)) []
      [mixFile 5#8 7#8] (4, (Encodable.encode (exInc false) : Int)) ⟨0, fun _ => 0#8⟩ = .ok out' := by
  obtain ⟨t, j⟩ := mix_job 7#8
  obtain ⟨n0, src, h⟩ := C92_queue_partial toK ofK j ⟨⟨0, 0, 0, 0, 0, 0, 0, 0⟩, 0, []⟩
    [keySort fun a b => getComp Sort.off 4 a.tr b.tr]
    (by simp only [List.mem_singleton]; rintro s rfl; exact ⟨_, _, comp_sorts Sort.off 4⟩)
    [.taper (fun i _ => ⟨BitVec.ofNat 32 i⟩) 2 1] (by
      simp only [List.mem_singleton]
      rintro d rfl k _
      rw [mixFile_trace]
      exact ⟨_, mix_taper _ (by decide) toK ofK⟩)
  obtain ⟨out', e, -⟩ := h ⟨0, fun _ => 0#8⟩
  exact ⟨n0, out', e⟩

/-- The source x of the traces falls: they are out of order by it. -/
example : (be32 (mixFile 5#8 7#8) 4 0 73).toInt = 7 ∧ (be32 (mixFile 5#8 7#8) 4 7 73).toInt = 0 := by
  constructor <;> decide +kernel

/-- With the taper before the sort they stay as they are. -/
example (toK : Flt → ℚ) (ofK : ℚ → Flt) : ∃ out' : Disk, (∀ fuel,
    queueSet ((([.taper (fun i _ => ⟨BitVec.ofNat 32 i⟩) 2 1] : List (TraceOp ℚ)).map (TraceOp.op toK ofK)).map .single ++
        [.sort (keySort fun a b => getComp Sort.off 35 a.tr b.tr)])
      (keySort pairLt) ⟨⟨0, 0, 0, 0, 0, 0, 0, 0⟩, 0, []⟩ fuel insIndex List.reverse 2 (fun q : ℚ => (Encodable.encode q : Int)) []
      [mixFile 5#8 7#8] (4, (Encodable.encode (exInc false) : Int)) ⟨0, fun _ => 0#8⟩ = .ok out') ∧
    ∀ k, k < 8 → HdrKept 4 (mixFile 5#8 7#8) k out' k := by
  obtain ⟨t, j⟩ := mix_job 7#8
  obtain ⟨out', e, -, -, h⟩ := C92_late_refuted toK ofK insIndex insIndex_sorts List.reverse (fun l => List.reverse_perm l) 2
    (by omega) _ exCode [] (by simp) [mixFile 5#8 7#8] _ j.hopen j.hsize 4 (by omega) (by omega) (exInc false) exInc_pos _
    j.hgrp j.hne j.hfmt 8 j.hN j.hsz [.taper (fun i _ => ⟨BitVec.ofNat 32 i⟩) 2 1] (by simp) (by
      simp only [List.mem_singleton]
      rintro d rfl k _
      rw [mixFile_trace]
      exact ⟨_, mix_taper _ (by decide) toK ofK⟩) ⟨0, fun _ => 0#8⟩
  refine ⟨out', fun fuel => e _ _ _ _ [], fun k hk => ?_⟩
  rw [List.flatMap_cons, List.flatMap_nil, List.append_nil, List.forall₂_map_left_iff] at h
  have := (List.forall₂_iff_get.1 h).2 k (by simpa using hk) (by simpa using hk)
  simpa using this.1

/-- In the IBM format: sorted, and one half is tapered for every trace. -/
example (toK : Flt → ℚ) (ofK : ℚ → Flt) : ∃ (fuel : Nat) (out' : Disk),
    queueSet ([.sort (keySort fun a b => getComp Sort.off 35 a.tr b.tr)] ++
        (([.taper (fun i _ => ⟨BitVec.ofNat 32 i⟩) 2 1] : List (TraceOp ℚ)).map (TraceOp.op toK ofK)).map .single)
      (keySort pairLt) ⟨⟨0, 0, 0, 0, 0, 0, 0, 0⟩, 0, []⟩ fuel insIndex List.reverse 2 (fun q : ℚ => (Encodable.encode q : Int)) []
      [mixFile 1#8 8#8] (4, (Encodable.encode (exInc false) : Int)) ⟨0, fun _ => 0#8⟩ = .ok out' ∧
    ∀ p, p < 8 → trace out' 4 p = [⟨0x3F000000#32⟩, ⟨0x7E000000#32⟩, ⟨0x3F000000#32⟩, ⟨0x3F000000#32⟩] := by
  obtain ⟨t, j⟩ := mix_sorting 1#8 8#8
  obtain ⟨n0, src, -, -, h⟩ := C92_ibm_refuted toK ofK j ⟨⟨0, 0, 0, 0, 0, 0, 0, 0⟩, 0, []⟩ [] (by simp)
    (fun _ _ => by show fromBE16 0#8 1#8 = 1#16; decide) [.taper (fun i _ => ⟨BitVec.ofNat 32 i⟩) 2 1] _
    (mix_taper 0x3F000000#32 (by decide) toK ofK)
  obtain ⟨g1, g2⟩ := h n0 (Nat.le_refl _) ⟨0, fun _ => 0#8⟩
  obtain ⟨out', e⟩ := g2 (by
    simp only [List.mem_singleton]
    rintro d rfl k _ s hs
    rw [mixFile_native _ _ _ _ hs]
    exact ⟨0x3F000000#32, by decide +kernel⟩)
  refine ⟨n0, out', e, fun p hp => ?_⟩
  rw [(g1 out' e).2 p hp]
  decide

end

end Verif.Flow
