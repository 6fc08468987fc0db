import Verif.DataIO.Lemmas
/-!
# Properties of the MPI-IO data layer: C17, C18, C19
-/
namespace Verif.DataIO

/-- A request to the data layer, read or write. -/
inductive Op where
  | contig (offset sz : Nat)
  | strided (offset bsz osz nb : Nat)
  | list (bsz : Nat) (offs : List Nat)

/-- Run a request. -/
def Op.run (env : Env) : Op → S → Res S
  | .contig offset sz => DataIO.contig env offset sz 0
  | .strided offset bsz osz nb => DataIO.strided env offset bsz osz nb
  | .list bsz offs => listIO env bsz offs

/-- The bytes a request is for: byte `j` of the caller's buffer and its place
in the file, in buffer order. -/
def Op.wanted : Op → List (Nat × Nat)
  | .contig offset sz => (List.range sz).map fun j => (j, offset + j)
  | .strided offset bsz osz nb =>
    (List.range nb).flatMap fun i => (List.range bsz).map fun r => (bsz * i + r, offset + osz * i + r)
  | .list bsz offs =>
    (List.range offs.length).flatMap fun i => (List.range bsz).map fun r => (i * bsz + r, offs[i]?.getD 0 + r)

/-- What the code needs: strides within the limit; for lists, twice the block
within the limit, displacements not decreasing, and not more of them per view
than the assertion in `randBlockView` allows. -/
def Op.Fits (maxSize : Nat) : Op → Prop
  | .contig _ _ => 0 < maxSize
  | .strided _ _ osz _ => 0 < osz ∧ osz ≤ maxSize
  | .list bsz offs => 0 < bsz ∧ bsz * 2 ≤ maxSize ∧ (maxSize / (bsz * 2) < 178956970 ∨ offs.length < 178956970) ∧
      offs.Pairwise (· ≤ ·)

theorem listMax_eq {env : Env} {bsz : Nat} (h : 0 < bsz) : listMax env bsz = env.maxSize / (bsz * 2) := by
  unfold listMax; rw [if_pos (by omega)]

/-- **C17.** Whatever the sizes of the other processes, and whichever transfers
fail, a request is issued as pieces of at most `maxSize` bytes which together
move exactly the requested bytes, each once, in order.  Views must not fail. -/
theorem C17_pieces_partial (env : Env) (op : Op) (hfit : op.Fits env.maxSize) (hint : env.maxSize < 2 ^ 31)
    (hviews : ∀ n e, e.isIo = false → env.fail n e = false) (s : S) (hs : s.view = .plain) :
    ∃ s' new, op.run env s = .ok s' ∧ s'.evs = s.evs ++ new ∧ s'.view = .plain ∧
      new.flatMap Ev.bytes = op.wanted ∧ ∀ e ∈ new, e.len ≤ env.maxSize := by
  cases op with
  | contig offset sz =>
    obtain ⟨s', new, h1, h2, h3, h4, h5, -⟩ := contig_spec env hfit offset sz 0 s
    refine ⟨s', _, h1, h2, h3.trans hs, ?_, ?_⟩
    · rw [List.flatMap_cons, h4, hs]
      simp [Ev.bytes, Op.wanted, View.addr]
    · intro e he
      rcases List.mem_cons.mp he with he | he
      · subst he; exact Nat.zero_le _
      · obtain ⟨p, b, n, h6, h7⟩ := h5 e he
        subst h6; exact h7
  | strided offset bsz osz nb =>
    obtain ⟨s', new, h1, h2, h3, h4, h5⟩ := strided_bytes env hviews offset bsz osz nb hfit.1 hfit.2 s hs
    refine ⟨s', _, h1, h2, h3, ?_, ?_⟩
    · rw [List.flatMap_cons, h4]; rfl
    · intro e he
      rcases List.mem_cons.mp he with he | he
      · subst he; exact Nat.zero_le _
      · exact h5 e he
  | list bsz offs =>
    have hm : 0 < listMax env bsz := by
      rw [listMax_eq hfit.1]; exact Nat.div_pos hfit.2.1 (by have := hfit.1; omega)
    obtain ⟨s', new, h1, h2, h3, -, h4, h5, -⟩ := listIO_good env hviews bsz offs hm
      (by rw [listMax_eq hfit.1]; exact hfit.2.2.1) hint hfit.2.2.2 s hs
    refine ⟨s', _, h1, h2, h3, ?_, ?_⟩
    · rw [List.flatMap_cons, h4]; rfl
    · intro e he
      rcases List.mem_cons.mp he with he | he
      · subst he; exact Nat.zero_le _
      · exact h5 e he

/-- Five bytes with a limit of two; three strided blocks; a list with a repeated entry. -/
example : (Op.contig 7 5).Fits 2 ∧ (Op.strided 3600 240 248 3).Fits 500 ∧ (Op.list 4 [0, 9, 9, 30]).Fits 16 := by
  refine ⟨show 0 < 2 by decide, ⟨by decide, by decide⟩, by decide, by decide, by decide, by decide⟩

/-- An environment where nothing fails and one process is alone with `n` elements. -/
def calm (maxSize : Nat) (top : Nat → Nat) : Env := ⟨maxSize, fun _ _ => false, top⟩

example : ((contig (calm 2 fun _ => 7) 7 5 0 ⟨[], .plain, false⟩)) = .ok
    ⟨[.gather 5, .io .plain 7 (some 0) 2, .io .plain 9 (some 2) 2, .io .plain 11 (some 4) 1,
      .io .plain 0 none 0], .plain, false⟩ := by
  simp [contig, contigIO, gatherMax, call, calm, calls, contigLoop, restLoop, sub64, ioFn, note, nGather]

/-- **C17 is false** for lists whose block is within the limit but more than
half of it: the piece size is zero and the code divides by it. -/
theorem C17_list_refuted : ∃ env : Env, ∃ bsz, ∃ offs : List Nat, ∃ s : S,
    0 < bsz ∧ bsz ≤ env.maxSize ∧ (∀ n e, env.fail n e = false) ∧ listIO env bsz offs s = .ub :=
  ⟨calm 100 fun _ => 1, 60, [0], ⟨[], .plain, false⟩, by decide, by decide, fun _ _ => rfl, by
    simp [listIO, calm]⟩

/-- **C17 is false** for every list of at least 178956970 blocks of at most a few bytes, whatever their places: with
pieces of that many blocks an assertion fails. -/
theorem C17_count_refuted (env : Env) (bsz : Nat) (offs : List Nat) (s : S) (hb : 0 < bsz)
    (hm : 178956970 ≤ env.maxSize / (bsz * 2)) (hn : 178956970 ≤ offs.length) : listIO env bsz offs s = .abort := by
  rw [listIO_unfold _ _ _ _ (by rw [listMax_eq hb]; omega), listMax_eq hb]
  unfold listLoop
  rw [if_pos ⟨by omega, by omega⟩, iol_abort _ _ _ _ _ (by rw [List.length_take, List.length_drop]; omega)]
  rfl

/-- Blocks of four bytes (samples) with the largest default limit. -/
example : 0 < 4 ∧ 178956970 ≤ (2 ^ 31 - 1) / (4 * 2) ∧ 178956970 ≤ (List.range 178956970).length := by
  rw [List.length_range]; decide

/-- **C17 is false** for every limit of 2^32 bytes or more that the first piece of a list makes use of: the number of
bytes does not fit an `int`. -/
theorem C17_int_refuted (env : Env) (hviews : ∀ n e, e.isIo = false → env.fail n e = false) (bsz : Nat) (offs : List Nat)
    (s : S) (hb : 0 < bsz) (hm : min offs.length (env.maxSize / (bsz * 2)) < 178956970)
    (hn : 2 ^ 31 ≤ min offs.length (env.maxSize / (bsz * 2)) * bsz) : listIO env bsz offs s = .ub := by
  have h0 : 0 < min offs.length (env.maxSize / (bsz * 2)) := Nat.pos_of_mul_pos_right (by omega : 0 < _ * bsz)
  rw [listIO_unfold _ _ _ _ (by rw [listMax_eq hb]; omega), listMax_eq hb]
  have hl : ((offs.drop 0).take (env.maxSize / (bsz * 2))).length = min offs.length (env.maxSize / (bsz * 2)) := by
    rw [List.length_take, List.length_drop]; omega
  unfold listLoop
  rw [if_pos ⟨by omega, by omega⟩, iol_ub env hviews _ _ _ _ (by rw [hl]; omega) (by rw [hl]; omega)]
  rfl

/-- Traces of 2^13 bytes with a limit of 2^32. -/
example : min (List.range (2 ^ 18)).length (2 ^ 32 / (2 ^ 13 * 2)) < 178956970 ∧
    2 ^ 31 ≤ min (List.range (2 ^ 18)).length (2 ^ 32 / (2 ^ 13 * 2)) * 2 ^ 13 := by
  rw [List.length_range]; decide

/-- **C17 is false** when a view cannot be set: a strided request goes on and
moves its bytes from the start of the file instead (so a failed header write
overwrites the file header); the error is recorded. -/
theorem C17_failed_view_refuted : ∃ env : Env, ∃ s s' : S, ∃ new, s.view = .plain ∧
    strided env 3600 4 8 1 s = .ok s' ∧ s'.evs = s.evs ++ new ∧ s'.err = true ∧
    (Op.strided 3600 4 8 1).wanted = [(0, 3600), (1, 3601), (2, 3602), (3, 3603)] ∧
    new.flatMap Ev.bytes = [(0, 0), (1, 1), (2, 2), (3, 3)] := by
  refine ⟨⟨1000, fun _ e => decide (e = .mkType), fun _ => 1⟩, ⟨[], .plain, false⟩,
    ⟨[.gather 1, .mkType, .gather 4, .io .plain 0 (some 0) 4, .setView .plain, .freeType], .plain, true⟩,
    _, rfl, ?_, rfl, rfl, by decide, by decide⟩
  simp [strided, contigIO, gatherMax, call, calls, contigLoop, restLoop, sub64, viewFn, viewIO, note,
    strideView, contig, ioFn]

/-- Collective structure of a request, the same on all processes. -/
def Op.shape : Op → Nat × Nat × Nat
  | .contig _ _ => (0, 0, 0)
  | .strided _ bsz osz _ => (1, bsz, osz)
  | .list bsz _ => (2, bsz, 0)

/-- A sequence of requests. -/
def runAll (env : Env) : List Op → S → Res S
  | [], s => .ok s
  | op :: l, s => do
    let s ← op.run env s
    runAll env l s

/-- The sizes a process contributed to the gathers, in order. -/
def contribs (l : List Ev) : List Nat :=
  l.filterMap fun e => match e with | .gather x => some x | _ => none

theorem sound_of_contribs (top : Nat → Nat) (l : List Ev) : ∀ k,
    (∀ i x, (contribs l)[i]? = some x → x ≤ top (k + i)) → Sound top k l := by
  induction l with
  | nil => intro k _; trivial
  | cons e l ih =>
    intro k h
    cases e with
    | gather x =>
      refine ⟨?_, ih (k + 1) fun i y hy => ?_⟩
      · have := h 0 x (by simp [contribs]); simpa using this
      · have := h (i + 1) y (by simpa [contribs] using hy)
        rwa [show k + 1 + i = k + (i + 1) by omega]
    | _ => exact ih k fun i y hy => h i y (by simpa [contribs] using hy)

/-- The collective calls a request makes given what the gathers return. -/
def opKinds (maxSize : Nat) (top : Nat → Nat) (k : Nat) : Nat × Nat × Nat → List Nat × Nat
  | (0, _, _) => (0 :: List.replicate (calls (top k) maxSize) 2, 1)
  | (1, _, osz) => (0 :: stridedKinds top maxSize (k + 1) (calls (top k) (maxSize / osz)),
      1 + calls (top k) (maxSize / osz))
  | (_, bsz, _) => (0 :: (List.replicate (calls (top k) (maxSize / (bsz * 2))) [1, 2, 1]).flatten, 1)

theorem op_kinds (env : Env) (op : Op) (hfit : op.Fits env.maxSize) (hint : env.maxSize < 2 ^ 31)
    (hviews : ∀ n e, e.isIo = false → env.fail n e = false) (htop : ∀ k, env.top k < 2 ^ 64)
    (s : S) (hs : s.view = .plain) :
    ∃ s' new, op.run env s = .ok s' ∧ s'.evs = s.evs ++ new ∧ s'.view = .plain ∧
      (Sound env.top (nGather s.evs) new →
        (kinds new, nGather new) = opKinds env.maxSize env.top (nGather s.evs) op.shape) := by
  cases op with
  | contig offset sz =>
    obtain ⟨s', new, h1, h2, h3, h4, h5, h6, -⟩ := contig_spec env hfit offset sz 0 s
    refine ⟨s', _, h1, h2, h3.trans hs, fun hsound => ?_⟩
    have hio : ∀ e ∈ new, ∃ w p b n, e = Ev.io w p b n := fun e he => by
      obtain ⟨p, b, n, h, _⟩ := h5 e he
      exact ⟨_, p, b, n, h⟩
    rw [calls_total hfit hsound.1 (htop _)] at h6
    rw [show Ev.gather sz :: new = [Ev.gather sz] ++ new from rfl, kinds_append, nGather_append,
      kinds_io new hio, nGather_io new hio, h6]
    rfl
  | strided offset bsz osz nb =>
    obtain ⟨s', new, h1, h2, h3, h4, h5⟩ := strided_bytes env hviews offset bsz osz nb hfit.1 hfit.2 s hs
    obtain ⟨s'', new', k1, k2, k3⟩ := strided_kinds env (fun n => hviews n _ rfl) htop offset bsz osz nb
      hfit.1 hfit.2 s
    rw [h1] at k1
    cases k1
    refine ⟨s', _, h1, k2, h3, fun hsound => ?_⟩
    rw [(k3 hsound).1, (k3 hsound).2]
    rfl
  | list bsz offs =>
    have hm : 0 < listMax env bsz := by
      rw [listMax_eq hfit.1]; exact Nat.div_pos hfit.2.1 (by have := hfit.1; omega)
    obtain ⟨s', new, h1, h2, h3, -, h4, h5, h6, h7⟩ := listIO_good env hviews bsz offs hm
      (by rw [listMax_eq hfit.1]; exact hfit.2.2.1) hint hfit.2.2.2 s hs
    refine ⟨s', _, h1, h2, h3, fun hsound => ?_⟩
    rw [calls_total hm hsound.1 (htop _), listMax_eq hfit.1] at h7
    rw [show Ev.gather offs.length :: new = [Ev.gather offs.length] ++ new from rfl, kinds_append,
      nGather_append, h6, h7]
    rfl

/-- The collective calls of a sequence of requests. -/
def seqKinds (maxSize : Nat) (top : Nat → Nat) (k : Nat) : List (Nat × Nat × Nat) → List Nat
  | [] => []
  | sh :: l => (opKinds maxSize top k sh).1 ++ seqKinds maxSize top (k + (opKinds maxSize top k sh).2) l

theorem seq_kinds (env : Env) (hint : env.maxSize < 2 ^ 31)
    (hviews : ∀ n e, e.isIo = false → env.fail n e = false) (htop : ∀ k, env.top k < 2 ^ 64)
    (ops : List Op) : ∀ s, (∀ op ∈ ops, op.Fits env.maxSize) → s.view = .plain →
    ∃ s' new, runAll env ops s = .ok s' ∧ s'.evs = s.evs ++ new ∧
      (Sound env.top (nGather s.evs) new →
        kinds new = seqKinds env.maxSize env.top (nGather s.evs) (ops.map Op.shape)) := by
  induction ops with
  | nil => intro s _ _; exact ⟨s, [], rfl, by simp, fun _ => rfl⟩
  | cons op ops ih =>
    intro s hfit hs
    obtain ⟨s1, new1, h1, h2, h3, h4⟩ := op_kinds env op (hfit op List.mem_cons_self) hint hviews htop s hs
    obtain ⟨s2, new2, k1, k2, k3⟩ := ih s1 (fun o ho => hfit o (List.mem_cons_of_mem _ ho)) h3
    refine ⟨s2, new1 ++ new2, ?_, ?_, fun hsound => ?_⟩
    · rw [runAll, h1, Res.ok_bind, k1]
    · rw [k2, h2, List.append_assoc]
    · rw [sound_append] at hsound
      have h5 := h4 hsound.1
      have h6 : nGather s1.evs = nGather s.evs + nGather new1 := by rw [h2, nGather_append]
      rw [← h6] at hsound
      have h7 := k3 hsound.2
      rw [kinds_append, h7, h6, List.map_cons, seqKinds, ← h5]

/-- **C18** when views and datatypes do not fail: `n` processes run any
sequences of requests of the same shapes, each with its own sizes, offsets and
failing transfers; every gather returns (at least) the largest contribution.
Then they all complete and make the same sequence of collective calls, so none
waits for a call another never makes. -/
theorem C18_same_calls_partial {n : Nat} (maxSize : Nat) (top : Nat → Nat) (fail : Fin n → Nat → Ev → Bool)
    (ops : Fin n → List Op) (hint : maxSize < 2 ^ 31)
    (hfit : ∀ r, ∀ op ∈ ops r, op.Fits maxSize)
    (hshape : ∀ r r', (ops r).map Op.shape = (ops r').map Op.shape)
    (hviews : ∀ r m e, e.isIo = false → fail r m e = false) (htop : ∀ k, top k < 2 ^ 64) :
    ∃ s : Fin n → S, (∀ r, runAll ⟨maxSize, fail r, top⟩ (ops r) ⟨[], .plain, false⟩ = .ok (s r)) ∧
      ((∀ r k x, (contribs (s r).evs)[k]? = some x → x ≤ top k) →
        ∀ r r', kinds (s r).evs = kinds (s r').evs) := by
  have main := fun r => seq_kinds ⟨maxSize, fail r, top⟩ hint (hviews r) htop (ops r)
    ⟨[], .plain, false⟩ (hfit r) rfl
  refine ⟨fun r => Classical.choose (main r), fun r => ?_, fun hc r r' => ?_⟩
  · obtain ⟨new, h1, h2, h3⟩ := Classical.choose_spec (main r)
    exact h1
  · have key : ∀ r, kinds (Classical.choose (main r)).evs =
        seqKinds maxSize top 0 ((ops r).map Op.shape) := by
      intro r
      have hcr := hc r
      obtain ⟨new, h1, h2, h3⟩ := Classical.choose_spec (main r)
      rw [List.nil_append] at h2
      rw [h2] at hcr ⊢
      exact h3 (sound_of_contribs top new 0 fun i x hx => by rw [Nat.zero_add]; exact hcr i x hx)
    rw [key r, key r', hshape r r']

/-- Two processes, one of them with nothing to transfer: the hypotheses hold
and both make one gather and three transfers. -/
example : ∃ s0 s1 : S,
    runAll (calm 2 fun _ => 5) [.contig 7 5] ⟨[], .plain, false⟩ = .ok s0 ∧
    runAll (calm 2 fun _ => 5) [.contig 0 0] ⟨[], .plain, false⟩ = .ok s1 ∧
    (∀ s ∈ [s0, s1], ∀ (k x : Nat), (contribs s.evs)[k]? = some x → x ≤ 5) ∧
    kinds s0.evs = [0, 2, 2, 2] ∧ kinds s1.evs = [0, 2, 2, 2] := by
  refine ⟨⟨[.gather 5, .io .plain 7 (some 0) 2, .io .plain 9 (some 2) 2, .io .plain 11 (some 4) 1], .plain, false⟩,
    ⟨[.gather 0, .io .plain 0 none 0, .io .plain 0 none 0, .io .plain 0 none 0], .plain, false⟩, ?_, ?_, ?_, rfl, rfl⟩
  · simp [runAll, Op.run, contig, contigIO, gatherMax, call, calm, calls, contigLoop, restLoop, sub64, ioFn, note, nGather]
  · simp [runAll, Op.run, contig, contigIO, gatherMax, call, calm, calls, contigLoop, restLoop, sub64, ioFn, note, nGather]
  · intro s hs k x hx
    simp only [List.mem_cons, List.not_mem_nil, or_false] at hs
    rcases hs with rfl | rfl <;> cases k <;> simp [contribs] at hx <;> omega

/-- **C18 is false** when a view fails on one process: its list request leaves
the loop and makes fewer collective calls than the others. -/
theorem C18_list_refuted : ∃ (f0 f1 : Nat → Ev → Bool) (s0 s1 : S),
    listIO ⟨16, f0, fun _ => 4⟩ 4 [0, 4, 8, 12] ⟨[], .plain, false⟩ = .ok s0 ∧
    listIO ⟨16, f1, fun _ => 4⟩ 4 [0, 4, 8, 12] ⟨[], .plain, false⟩ = .ok s1 ∧
    (kinds s0.evs).length = 7 ∧ (kinds s1.evs).length = 2 := by
  refine ⟨fun _ _ => false, fun n _ => decide (n = 2),
    ⟨[.gather 4, .mkType, .setView (.blocks 4 [0, 4]), .io (.blocks 4 [0, 4]) 0 (some 0) 8, .setView .plain, .freeType,
      .mkType, .setView (.blocks 4 [8, 12]), .io (.blocks 4 [8, 12]) 0 (some 8) 8, .setView .plain, .freeType],
      .plain, false⟩,
    ⟨[.gather 4, .mkType, .setView (.blocks 4 [0, 4])], .plain, true⟩, ?_, ?_, rfl, rfl⟩
  · simp [listIO, gatherMax, call, listLoop, iol, randBlockView, nondec, listRest, sub64, calls, note]
  · simp [listIO, gatherMax, call, listLoop, iol, randBlockView, nondec, listRest, sub64, calls, note]

/-- **C18 is false** for strided requests when a datatype cannot be created on
one process: it skips a collective `set_view`. -/
theorem C18_strided_refuted : ∃ (f0 f1 : Nat → Ev → Bool) (s0 s1 : S),
    strided ⟨16, f0, fun k => if k = 0 then 2 else 8⟩ 0 4 8 2 ⟨[], .plain, false⟩ = .ok s0 ∧
    strided ⟨16, f1, fun k => if k = 0 then 2 else 8⟩ 0 4 8 2 ⟨[], .plain, false⟩ = .ok s1 ∧
    contribs s0.evs = [2, 8] ∧ contribs s1.evs = [2, 8] ∧
    (kinds s0.evs).length = 5 ∧ (kinds s1.evs).length = 4 := by
  refine ⟨fun _ _ => false, fun n _ => decide (n = 1),
    ⟨[.gather 2, .mkType, .setView (.strided 0 4 8 2), .gather 8, .io (.strided 0 4 8 2) 0 (some 0) 8,
      .setView .plain, .freeType], .plain, false⟩,
    ⟨[.gather 2, .mkType, .gather 8, .io .plain 0 (some 0) 8, .setView .plain, .freeType], .plain, true⟩,
    ?_, ?_, rfl, rfl, rfl, rfl⟩
  · simp [strided, contigIO, gatherMax, call, calls, contigLoop, restLoop, sub64, viewFn, viewIO, note,
      nGather, strideView, contig, ioFn]
  · simp [strided, contigIO, gatherMax, call, calls, contigLoop, restLoop, sub64, viewFn, viewIO, note,
      nGather, strideView, contig, ioFn]

/-- **C19** for contiguous and strided requests: if any transfer the request
issues fails, the error state is set when it returns (whatever else fails). -/
theorem C19_reported_partial (env : Env) (op : Op) (hop : op.shape.1 ≠ 2) (hfit : op.Fits env.maxSize)
    (s : S) : ∃ s' new, op.run env s = .ok s' ∧ s'.evs = s.evs ++ new ∧
      ∀ k e, new[k]? = some e → e.isIo = true → env.fail (s.evs.length + k) e = true → s'.err = true := by
  cases op with
  | contig offset sz =>
    obtain ⟨s', new, h1, h2, h3, h4, h5, h6, h7⟩ := contig_spec env hfit offset sz 0 s
    refine ⟨s', _, h1, h2, fun k e hk he hf => ?_⟩
    have hbad := (ioBad_iff env (Ev.gather sz :: new) s.evs.length).mpr ⟨k, e, hk, he, hf⟩
    rw [ioBad, ioBad_all _ _ _ (fun e he => by
      obtain ⟨p, b, n, h, _⟩ := h5 e he
      subst h; rfl)] at hbad
    rw [h7]
    simp [Ev.isIo] at hbad
    simp [hbad]
  | strided offset bsz osz nb =>
    obtain ⟨s', new, h1, h2, h3, -⟩ := strided_err env offset bsz osz nb hfit.1 hfit.2 s
    exact ⟨s', new, h1, h2, fun k e hk he hf => h3 ((ioBad_iff env new s.evs.length).mpr ⟨k, e, hk, he, hf⟩)⟩
  | list bsz offs => exact absurd rfl hop

/-- The second of three pieces fails. -/
example : ∃ s', contig ⟨2, fun n _ => n == 2, fun _ => 5⟩ 7 5 0 ⟨[], .plain, false⟩ = .ok s' ∧
    s'.evs[2]? = some (.io .plain 9 (some 2) 2) ∧ s'.err = true := by
  refine ⟨⟨[.gather 5, .io .plain 7 (some 0) 2, .io .plain 9 (some 2) 2, .io .plain 11 (some 4) 1], .plain, true⟩,
    ?_, rfl, rfl⟩
  simp [contig, contigIO, gatherMax, call, calls, contigLoop, restLoop, sub64, ioFn, note]

/-- No error is recorded when nothing fails (contiguous requests). -/
theorem C19_no_false_report_partial (env : Env) (offset sz : Nat) (hm : 0 < env.maxSize)
    (hok : ∀ n e, env.fail n e = false) (s s' : S) (h : contig env offset sz 0 s = .ok s') :
    s'.err = s.err := by
  obtain ⟨s2, new, h1, h2, h3, h4, h5, h6, h7⟩ := contig_spec env hm offset sz 0 s
  rw [h] at h1
  cases h1
  have : ∀ (l : List Ev) n, anyFail env n l = false := by
    intro l
    induction l with
    | nil => intro n; rfl
    | cons e l ih => intro n; rw [anyFail, hok, ih]; rfl
  rw [h7, this]
  simp

example : ∃ s', contig (calm 2 fun _ => 5) 7 5 0 ⟨[], .plain, false⟩ = .ok s' ∧ s'.err = false := by
  refine ⟨⟨[.gather 5, .io .plain 7 (some 0) 2, .io .plain 9 (some 2) 2, .io .plain 11 (some 4) 1], .plain, false⟩,
    ?_, rfl⟩
  simp [contig, contigIO, gatherMax, call, calls, contigLoop, restLoop, sub64, ioFn, note, nGather, calm]

/-- **C19 is false** for list requests, in general: as long as views work, no
failing transfer is ever recorded — whatever the list and the failures. -/
theorem C19_list_refuted (env : Env) (bsz : Nat) (offs : List Nat)
    (hfit : (Op.list bsz offs).Fits env.maxSize) (hint : env.maxSize < 2 ^ 31)
    (hviews : ∀ n e, e.isIo = false → env.fail n e = false) (s : S) (hs : s.view = .plain) :
    ∃ s', listIO env bsz offs s = .ok s' ∧ s'.err = s.err := by
  have hm : 0 < listMax env bsz := by
    rw [listMax_eq hfit.1]; exact Nat.div_pos hfit.2.1 (by have := hfit.1; omega)
  obtain ⟨s', new, h1, h2, h3, h4, -⟩ := listIO_good env hviews bsz offs hm
    (by rw [listMax_eq hfit.1]; exact hfit.2.2.1) hint hfit.2.2.2 s hs
  exact ⟨s', h1, h4⟩

/-- Every single transfer fails, and there is at least one. -/
example : (Op.list 4 [0, 9]).Fits 16 ∧ (∀ n e, Ev.isIo e = false → (fun (_ : Nat) (e : Ev) => e.isIo) n e = false) :=
  ⟨⟨by decide, by decide, by decide, by decide⟩, fun _ _ h => h⟩

end Verif.DataIO
