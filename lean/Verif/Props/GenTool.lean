import Verif.Util.GenTool
import Verif.Props.CreateTool
import Verif.Props.FileMake
import Verif.Props.Sglobal
import Verif.Flow.OutputLemmas

/-!
# C89: the file that `filemake` makes
-/

namespace Verif.Gen
open Verif.Rules Verif.Params Verif.Files Verif.Layout Verif.Endian Verif.FP Verif.Flow Verif.Extremes Verif.Scalar
open Verif.CCreate Verif.Util
open Verif.Signal (readAt)

/-! ## Rows -/

theorem tent_cast {nt g : Nat} (h : g < nt) :
    (tent nt g : Int) = ((nt / 2 : Nat) : Int) - ((-((nt / 2 : Nat) : Int) + g).natAbs : Int) := by
  unfold tent; omega

theorem tent_le (nt g : Nat) : tent nt g ≤ nt / 2 := by
  unfold tent; omega

theorem row_ok (nt : Nat) : RowOk (row nt) [20, 21, 22, 23, 24, 25, 26, 27, 5] :=
  ⟨fun g => by simp [row, CCreate.places], by decide, by decide⟩

theorem row_coords (nt : Nat) : Coords (row nt) (fun g => single (tent nt g)) :=
  fun _ _ hq => List.mem_append.2 (Or.inl (List.mem_map.2 ⟨_, hq, rfl⟩))

theorem row_dist {nt : Nat} (h : nt ≤ 2 ^ 30) (g : Nat) : single (tent nt g) ≤ 2 ^ 30 + 64 := by
  have := tent_le nt g
  have := single_le (n := tent nt g) (by omega)
  omega

theorem fillAt_eq (f : Nat → List (Nat × Value)) (num : Nat → Res Nat) (g : Nat → Nat) (n : Nat) : ∀ (j : Nat) (p : Param ℚ),
    (∀ i, j ≤ i → i < j + n → num i = .ok (g i)) → j + n < 2 ^ 64 →
    fillAt f num p j n = fillRows (fun i => f (g i)) 0 p j n := by
  induction n with
  | zero => intro j p _ _; rfl
  | succ n ih =>
    intro j p h hlt
    unfold fillAt fillRows
    rw [h j (Nat.le_refl _) (by omega), Res.ok_bind, add64_eq (by omega), Nat.zero_add]
    congr 1
    funext p
    exact ih (j + 1) p (fun i h1 h2 => h i (by omega) (by omega)) (by omega)

theorem fillAt_spec {nt : Nat} (hnt : nt ≤ 2 ^ 30) {num : Nat → Res Nat} {g : Nat → Nat} {n : Nat} (hn : n < 2 ^ 64)
    (hg : ∀ i, i < n → num i = .ok (g i)) {p0 : Param ℚ} (h0 : Filled p0) (hsz : n ≤ p0.sz) :
    ∃ p, fillAt (row nt) num p0 0 n = .ok p ∧ Filled p ∧ p.sz = p0.sz ∧
      ∀ j, j < n → ∀ q ∈ row nt (g j), Is p j q.1 q.2 := by
  have hr := row_ok nt
  obtain ⟨p, e1, e2, e3, e4⟩ := fill_spec (row := fun i => row nt (g i)) (c := fun i => single (tent nt (g i))) (off := 0) (n := n)
    ⟨fun i => hr.map (g i), hr.nodup, hr.known⟩ (fun i q hq => row_coords nt (g i) q hq) (by decide) (by omega)
    (fun j _ => row_dist hnt _) h0 hsz
  refine ⟨p, ?_, e2, e3, fun j hj q hq => e4 j hj q (by rw [Nat.zero_add]; exact hq)⟩
  rw [fillAt_eq (row nt) num g n 0 p0 (fun i _ h => hg i (by omega)) (by omega), e1]

/-! ## Pieces -/

/-- A piece that is as it should be: row `j` is trace `num j`, with the header of that trace, and the samples are those
numbered from the first of trace `num 0`. -/
structure PutIs (bits : Nat → BitVec 32) (nt ns : Nat) (num : Nat → Nat) (n : Nat) (q : Put) : Prop where
  count : q.n = n
  trace : ∀ j, j < n → q.pos.trace j = num j
  small : Small ns q.pos n nt
  incr : Inc q.pos n
  filled : Filled q.prm
  size : n ≤ q.prm.sz
  rows : ∀ j, j < n → ∀ e ∈ row nt (num j), Is q.prm j e.1 e.2
  len : 4 * (ns * n) ≤ q.trc.len ∧ q.trc.len ≤ 2 ^ 63
  samples : ∀ j s, j < n → s < ns → sample q.trc (j * ns + s) = bits ((num 0 + j) * ns + s)

/-- What a piece leaves in the file. -/
structure PutDone (bits : Nat → BitVec 32) (nt ns : Nat) (num : Nat → Nat) (n : Nat) (o : Disk) : Prop where
  hdr : ∀ j, j < n → Hdr (row nt) ns (num j) o
  samples : ∀ j s, j < n → s < ns → dsamp o ns (num j) s = bits ((num 0 + j) * ns + s)

theorem put_spec {bits : Nat → BitVec 32} {nt ns : Nat} {num : Nat → Nat} {n : Nat} {q : Put} (h : PutIs bits nt ns num n q)
    (o : Disk) : ∃ o', put ns q o = .ok o' ∧ PutDone bits nt ns num n o' ∧
      ∀ x, (∀ j, j < n → ¬ (taddr ns (num j) ≤ x ∧ x < taddr ns (num j) + (240 + 4 * ns))) → o'.byte x = o.byte x := by
  obtain ⟨pos, n', t, p⟩ := q
  obtain ⟨rfl, h2, h3, h4, h5, h6, h7, h8, h9⟩ := h
  dsimp only at *
  obtain ⟨o', w1, w5, w6, w3, -, -, -⟩ := write_spec dbl ns pos n' (some t) (some p) 0 o nt h3 h4
    (by rintro q h; cases h; exact h8) (by rintro q h; cases h; exact ⟨h5.ok, by omega⟩) (by simp)
  refine ⟨o', by unfold put; rw [w1, Res.ok_bind], ⟨fun j hj => ⟨p, j, h5.wf, h5.rule, h7 j hj, h5.offset j, ?_⟩,
    fun j s hj hs => ?_⟩, fun x hx => w3 x fun j hj => ?_⟩
  · have := w6 p rfl j hj
    rwa [h2 j hj] at this
  · have := w5 t rfl j s hj hs
    rw [h2 j hj] at this
    rw [this, h9 j s hj hs]
  · have := hx j hj
    rw [h2 j hj]
    exact ⟨fun _ => by omega, fun _ => by omega⟩

theorem contigPuts_spec (bits : Nat → BitVec 32) {nt ns max offset : Nat} (hnt : nt ≤ 2 ^ 30) (hsz : taddr ns nt < 2 ^ 63)
    (hmax : 4 * (max * ns) ≤ 2 ^ 62) (l : List (Nat × Nat)) :
    ∀ (p : Param ℚ) (t : Arr Byte), Filled p → p.sz = max → t.len = 4 * (max * ns) →
      (∀ b ∈ l, b.2 ≤ max ∧ offset + b.1 + b.2 ≤ nt) →
      ∃ ps, contigPuts bits nt ns max offset l p t = .ok ps ∧
        List.Forall₂ (fun b q => PutIs bits nt ns (fun j => offset + (b.1 + j)) b.2 q) l ps := by
  induction l with
  | nil => intro p t _ _ _ _; exact ⟨[], rfl, List.Forall₂.nil⟩
  | cons b l ih =>
    intro p t hp hps ht hb
    obtain ⟨i, n⟩ := b
    obtain ⟨hn, hle⟩ := hb (i, n) (by simp)
    dsimp only at hn hle
    have hlt := nt_lt hsz
    have a1 : add64 offset i = offset + i := add64_eq (by omega)
    obtain ⟨p1, e1, e2, e3, e4⟩ := fillAt_spec hnt (num := fun j => .ok (add64 (add64 offset i) j)) (g := fun j => offset + (i + j))
      (n := n) (by omega) (fun j hj => by rw [a1, add64_eq (by omega), Nat.add_assoc]) hp (by omega)
    have b2 := sample_bytes hsz (show offset + i ≤ nt by omega)
    have m1 : mul64 max ns = max * ns := mul64_eq (by omega)
    have m2 : mul64 (offset + i) ns = (offset + i) * ns := mul64_eq (by omega)
    obtain ⟨t1, f1, f2, f3⟩ := fillSamples_spec bits ((offset + i) * ns) (max * ns) 0 t (by omega) (by omega) (by omega)
    obtain ⟨ps, g1, g2⟩ := ih p1 t1 e2 (by omega) (by omega) (fun b hb' => hb b (by simp [hb']))
    obtain ⟨hsm, hinc, htr⟩ := small_of hsz hle
    refine ⟨⟨.start (offset + i), n, t1, p1⟩ :: ps, ?_, List.Forall₂.cons ⟨rfl, fun j hj => by rw [htr j hj, Nat.add_assoc], hsm, hinc, e2, by show n ≤ p1.sz; omega,
      e4, ?_, ?_⟩ g2⟩
    · unfold contigPuts
      rw [e1, Res.ok_bind, a1, m1, m2, f1, Res.ok_bind, g1, Res.ok_bind]
    · have := Nat.mul_le_mul_right ns hn
      show 4 * (ns * n) ≤ t1.len ∧ t1.len ≤ 2 ^ 63
      rw [Nat.mul_comm ns n]
      omega
    · intro j s hj hs
      have h1 : (j + 1) * ns ≤ max * ns := Nat.mul_le_mul_right _ (by dsimp only at hj; omega)
      rw [Nat.add_mul] at h1
      show sample t1 (j * ns + s) = bits ((offset + (i + 0) + j) * ns + s)
      rw [f3, if_pos (by omega), Nat.add_zero, Nat.add_mul (offset + i), Nat.add_assoc]

theorem readAt_ok {l : List Nat} {i : Nat} (h : i < l.length) : readAt l i = .ok (l.getD i 0) := by
  unfold readAt
  rw [List.getD_eq_getElem?_getD, List.getElem?_eq_getElem h]
  rfl

theorem randomPuts_spec (bits : Nat → BitVec 32) {nt ns : Nat} {offs : List Nat} (hnt : nt ≤ 2 ^ 30) (hsz : taddr ns nt < 2 ^ 63)
    (hlt : ∀ x ∈ offs, x < nt) (hinc : offs.Pairwise (· < ·)) (l : List (Nat × Nat)) :
      (∀ b ∈ l, 1 ≤ b.2 ∧ b.1 + b.2 ≤ offs.length) →
      ∃ ps, randomPuts bits nt ns dr offs l = .ok ps ∧
        List.Forall₂ (fun b q => PutIs bits nt ns (fun j => offs.getD (b.1 + j) 0) b.2 q) l ps := by
  induction l with
  | nil => intro _; exact ⟨[], rfl, List.Forall₂.nil⟩
  | cons b l ih =>
    intro hb
    obtain ⟨i, n⟩ := b
    obtain ⟨hn, hle⟩ := hb (i, n) (by simp)
    dsimp only at hn hle
    have hlen : ((offs.drop i).take n).length = n := by rw [List.length_take, List.length_drop]; omega
    have hsub : ((offs.drop i).take n).Sublist offs := (List.take_sublist _ _).trans (List.drop_sublist _ _)
    have hsm := small_list (ns := ns) hsz (fun x hx => hlt x (hsub.subset hx)) (hinc.sublist hsub)
    have hic := inc_of_lt (hinc.sublist hsub)
    rw [hlen] at hsm hic
    have htr : ∀ j, j < n → (Where.list ((offs.drop i).take n)).trace j = offs.getD (i + j) 0 := by
      intro j hj
      show ((offs.drop i).take n)[j]?.getD 0 = _
      rw [List.getElem?_take, if_pos hj, List.getElem?_drop, List.getD_eq_getElem?_getD]
    have hnle : n ≤ nt := hsm.cnt
    obtain ⟨p1, e1, e2, e3, e4⟩ := fillAt_spec hnt (num := fun j => readAt offs (i + j)) (g := fun j => offs.getD (i + j) 0)
      (n := n) (by omega) (fun j hj => readAt_ok (by omega)) (mk_filled n) (Nat.le_refl n)
    have hf : offs.getD i 0 < nt := by
      rw [List.getD_eq_getElem?_getD, List.getElem?_eq_getElem (by omega)]
      exact hlt _ (List.getElem_mem _)
    have b1 := sample_bytes hsz hnle
    have b2 := sample_bytes hsz hf.le
    have m1 : mul64 n ns = n * ns := mul64_eq (by omega)
    have m2 : mul64 (offs.getD i 0) ns = offs.getD i 0 * ns := mul64_eq (by omega)
    obtain ⟨t1, f1, f2, f3⟩ := fillSamples_spec bits (offs.getD i 0 * ns) (n * ns) 0 ⟨4 * (n * ns), fun _ => 0#8⟩
      (by show 4 * (0 + n * ns) ≤ 4 * (n * ns); omega) (by show 4 * (n * ns) ≤ 2 ^ 63; omega) (by omega)
    have f2 : t1.len = 4 * (n * ns) := f2
    obtain ⟨ps, g1, g2⟩ := ih (fun b hb' => hb b (by simp [hb']))
    refine ⟨⟨.list ((offs.drop i).take n), n, t1, p1⟩ :: ps, ?_, List.Forall₂.cons ⟨rfl, htr, hsm, hic, e2, e3.ge, e4, ?_, ?_⟩ g2⟩
    · unfold randomPuts
      rw [e1, Res.ok_bind, readAt_ok (by omega), Res.ok_bind, m1, m2, f1, Res.ok_bind, g1, Res.ok_bind]
    · show 4 * (ns * n) ≤ t1.len ∧ t1.len ≤ 2 ^ 63
      rw [Nat.mul_comm ns n]
      omega
    · intro j s hj hs
      have h1 : (j + 1) * ns ≤ n * ns := Nat.mul_le_mul_right _ hj
      rw [Nat.add_mul] at h1
      show sample t1 (j * ns + s) = bits ((offs.getD (i + 0) 0 + j) * ns + s)
      rw [f3, if_pos (by omega), Nat.add_zero, Nat.add_mul (offs.getD i 0), Nat.add_assoc]

/-! ## Shares -/

/-- The shares of the processes: they make up the file, and none is larger than the largest. -/
structure Shares (lob : Bool) (nt P : Nat) (off lnt : Nat → Nat) (big : Nat) : Prop where
  eq : ∀ r, r < P → shareOf lob nt P r = .ok (off r, lnt r, big)
  le : ∀ r, r < P → lnt r ≤ big
  big : big ≤ nt
  tile : (List.range P).flatMap (fun r => (List.range (lnt r)).map (off r + ·)) = List.range nt

theorem Shares.inside {lob : Bool} {nt P : Nat} {off lnt : Nat → Nat} {big : Nat} (h : Shares lob nt P off lnt big) {r i : Nat}
    (hr : r < P) (hi : i < lnt r) : off r + i < nt := by
  have : off r + i ∈ List.range nt := by
    rw [← h.tile]
    exact List.mem_flatMap.2 ⟨r, List.mem_range.2 hr, List.mem_map.2 ⟨i, List.mem_range.2 hi, rfl⟩⟩
  exact List.mem_range.1 this

theorem Shares.sum {lob : Bool} {nt P : Nat} {off lnt : Nat → Nat} {big : Nat} (h : Shares lob nt P off lnt big) :
    ((List.range P).map lnt).sum = nt := by
  have := congrArg List.length h.tile
  rw [List.length_flatMap, List.length_range] at this
  simpa [Function.comp_def] using this

theorem shares_even {nt P : Nat} (hP : 0 < P) (hnt : nt < 2 ^ 64) :
    Shares false nt P (Decomp.off nt P) (Decomp.sz nt P) ((List.range P).map (Decomp.sz nt P) |>.foldl Nat.max 0) := by
  refine ⟨fun r hr => ?_, fun r hr => ?_, ?_, ?_⟩
  · unfold shareOf
    rw [if_neg (by simp), decs_eq hP hnt, Res.ok_bind, Decomp.blockDecomposition_eq hP hr hnt, Res.ok_bind]
    unfold decs
    rw [List.map_map]
    rfl
  · exact (le_foldl_max _ 0).2 _ (List.mem_map.2 ⟨r, List.mem_range.2 hr, rfl⟩)
  · refine foldl_max_le _ _ _ (Nat.zero_le _) ?_
    intro x hx
    obtain ⟨r, hr, rfl⟩ := List.mem_map.1 hx
    have := Decomp.off_le nt P (r + 1) hP (List.mem_range.1 hr)
    rw [Decomp.off_succ] at this
    omega
  · have := Decomp.flatMap_range nt P P
    rw [Decomp.off_last nt P hP] at this
    rw [← this]
    congr 1
    funext r
    rw [List.range'_eq_map_range]

/-- With the uneven decomposition, if rounding does not give away more traces than the share of the first process. -/
theorem shares_lob {nt P : Nat} (hP : 0 < P) (hnt : nt < 2 ^ 32)
    (hs : ((List.range P).map (lobShare nt P)).sum ≤ nt + lobShare nt P 0) :
    ∃ off lnt big, Shares true nt P off lnt big := by
  have hf : lobShare nt P 0 < 2 ^ 63 := by
    unfold lobShare
    obtain ⟨T, hT⟩ : ∃ T, P * (P + 1) / 2 = T := ⟨_, rfl⟩
    have hT1 : 1 ≤ T := by
      have : 1 * 2 ≤ P * (P + 1) := Nat.mul_le_mul hP (by omega)
      omega
    rw [hT, Nat.zero_add, Nat.mul_one, Nat.div_lt_iff_lt_mul (by omega)]
    have : 2 ^ 33 * (2 * T) ≤ 2 ^ 63 * (2 * T) := Nat.mul_le_mul_right _ (by norm_num)
    omega
  obtain ⟨ds, big, h1, h2, h3, h4⟩ := C60_tiles_partial nt P hP hnt hs hf
  have hmax : ∀ d ∈ ds, d.localSize ≤ big := by
    intro d hd
    rw [List.max?_eq_some_iff] at h4
    exact h4.2 _ (List.mem_map.2 ⟨d, hd, rfl⟩)
  have hget : ∀ r, r < P → ds.getD r ⟨0, 0⟩ ∈ ds ∧ lobdecompose nt P r =
      .ok ((ds.getD r ⟨0, 0⟩).globalOffset, (ds.getD r ⟨0, 0⟩).localSize, big) := by
    intro r hr
    rw [List.getD_eq_getElem?_getD, List.getElem?_eq_getElem (by omega)]
    exact ⟨List.getElem_mem _, h2 r (by omega)⟩
  refine ⟨fun r => (ds.getD r ⟨0, 0⟩).globalOffset, fun r => (ds.getD r ⟨0, 0⟩).localSize, big, fun r hr => ?_, fun r hr => ?_,
    ?_, ?_⟩
  · unfold shareOf
    rw [if_pos rfl]
    exact (hget r hr).2
  · exact hmax _ (hget r hr).1
  · rw [List.max?_eq_some_iff] at h4
    obtain ⟨d, hd, rfl⟩ := List.mem_map.1 h4.1
    have hsub : ∀ x ∈ Decomp.Dec.elems d, x ∈ List.range nt := fun x hx => by
      rw [← h3]; exact List.mem_flatMap.2 ⟨d, hd, hx⟩
    rcases Nat.eq_zero_or_pos d.localSize with h | h
    · omega
    · have := List.mem_range.1 (hsub (d.globalOffset + (d.localSize - 1)) (by
        unfold Decomp.Dec.elems
        rw [List.mem_range'_1]
        omega))
      omega
  · rw [← h3]
    have : ds = (List.range P).map fun r => ds.getD r ⟨0, 0⟩ := by
      apply List.ext_getElem
      · simp [h1]
      · intro r h _
        rw [List.getElem_map, List.getElem_range, List.getD_eq_getElem?_getD, List.getElem?_eq_getElem h]
        rfl
    conv => rhs; rw [this, List.flatMap_map]
    congr 1
    funext r
    unfold Decomp.Dec.elems
    rw [List.range'_eq_map_range]

/-! ## A process -/

/-- The number of calls of every process. -/
def nCalls (big max : Nat) : Nat := (big + (max - 1)) / max

theorem pieces_inside {lnt max : Nat} (hm : 1 ≤ max) {b : Nat × Nat} (hb : b ∈ pieces lnt max lnt 0) :
    1 ≤ b.2 ∧ b.2 ≤ max ∧ b.1 + b.2 ≤ lnt := (pieces_spec lnt max hm lnt 0 (by omega)).2.2 b hb

theorem contig_spec (bits : Nat → BitVec 32) {lob : Bool} {nt ns P max : Nat} {off lnt : Nat → Nat} {big : Nat}
    (h : Shares lob nt P off lnt big) (hnt : nt ≤ 2 ^ 30) (hsz : taddr ns nt < 2 ^ 63) (hm : 1 ≤ max)
    (hmax : 4 * (max * ns) ≤ 2 ^ 62) (hmm : max < 2 ^ 63) (w : W) (num : List Nat) {r : Nat} (hr : r < P) :
    ∃ ps, ∃ calls : List (Nat × Nat), process bits lob false P max nt ns w num r = .ok (ps, calls.foldl (fun w c => w.writeTrace c.1 c.2) w) ∧
      List.Forall₂ (fun b q => PutIs bits nt ns (fun j => off r + (b.1 + j)) b.2 q) (pieces (lnt r) max (lnt r) 0) ps ∧
      calls.length = nCalls big max ∧ ∀ c ∈ calls, c.1 + c.2 ≤ nt := by
  have hbig := h.big
  have hle := h.le r hr
  have hlt := nt_lt hsz
  obtain ⟨extra, x1, -, -, x4⟩ := C61_calls_partial big (lnt r) max hm hle (by omega)
  have hin : ∀ b ∈ pieces (lnt r) max (lnt r) 0, b.2 ≤ max ∧ off r + b.1 + b.2 ≤ nt := by
    intro b hb
    obtain ⟨b1, b2, b3⟩ := pieces_inside hm hb
    have := h.inside hr (i := b.1 + b.2 - 1) (by omega)
    omega
  have m1 : mul64 max ns = max * ns := mul64_eq (by omega)
  obtain ⟨ps, p1, p2⟩ := contigPuts_spec bits hnt hsz hmax (pieces (lnt r) max (lnt r) 0) (Params.mk 0 dr max)
    ⟨4 * (max * ns), fun _ => 0#8⟩ (mk_filled max) rfl rfl hin
  refine ⟨ps, (pieces (lnt r) max (lnt r) 0).map (fun b => (add64 (off r) b.1, b.2)) ++ List.replicate extra (0, 0), ?_, p2, ?_,
    ?_⟩
  · unfold process
    rw [h.eq r hr, Res.ok_bind]
    dsimp only
    rw [x1, Res.ok_bind, ctor_default, Res.ok_bind, if_neg (by simp), m1, p1, Res.ok_bind]
  · rw [List.length_append, List.length_map, List.length_replicate, x4]
    rfl
  · intro c hc
    rcases List.mem_append.1 hc with hc | hc
    · obtain ⟨b, hb, rfl⟩ := List.mem_map.1 hc
      have := (hin b hb).2
      dsimp only
      rw [add64_eq (by omega)]
      omega
    · rw [List.eq_of_mem_replicate hc]
      omega

theorem random_spec (bits : Nat → BitVec 32) {lob : Bool} {nt ns P max : Nat} {off lnt : Nat → Nat} {big : Nat}
    (h : Shares lob nt P off lnt big) (hnt : nt ≤ 2 ^ 30) (hsz : taddr ns nt < 2 ^ 63) (hm : 1 ≤ max)
    (hmm : max < 2 ^ 63) (w : W) (num : List Nat) {r : Nat} (hr : r < P) {offs : List Nat}
    (ho : randomOffsets nt num r = .ok offs) (hlen : offs.length = lnt r) (hlt : ∀ x ∈ offs, x < nt)
    (hinc : offs.Pairwise (· < ·)) :
    ∃ ps, ∃ calls : List (List Nat), process bits lob true P max nt ns w num r = .ok (ps, calls.foldl W.writeList w) ∧
      List.Forall₂ (fun b q => PutIs bits nt ns (fun j => offs.getD (b.1 + j) 0) b.2 q) (pieces (lnt r) max (lnt r) 0) ps ∧
      calls.length = nCalls big max ∧ ∀ c ∈ calls, (∀ k ∈ c, k < nt) ∧ c.Pairwise (· ≤ ·) := by
  have hbig := h.big
  have hle := h.le r hr
  have hn := nt_lt hsz
  obtain ⟨extra, x1, -, -, x4⟩ := C61_calls_partial big (lnt r) max hm hle (by omega)
  have hin : ∀ b ∈ pieces (lnt r) max (lnt r) 0, 1 ≤ b.2 ∧ b.1 + b.2 ≤ offs.length := by
    intro b hb
    obtain ⟨b1, b2, b3⟩ := pieces_inside hm hb
    omega
  obtain ⟨ps, p1, p2⟩ := randomPuts_spec bits hnt hsz hlt hinc (pieces (lnt r) max (lnt r) 0) hin
  refine ⟨ps, (pieces (lnt r) max (lnt r) 0).map (fun b => (offs.drop b.1).take b.2) ++ List.replicate extra [], ?_, p2, ?_,
    ?_⟩
  · unfold process
    rw [h.eq r hr, Res.ok_bind]
    dsimp only
    rw [x1, Res.ok_bind, ctor_default, Res.ok_bind, if_pos rfl, ho, Res.ok_bind, p1, Res.ok_bind]
  · rw [List.length_append, List.length_map, List.length_replicate, x4]
    rfl
  · intro c hc
    rcases List.mem_append.1 hc with hc | hc
    · obtain ⟨b, hb, rfl⟩ := List.mem_map.1 hc
      have hsub : ((offs.drop b.1).take b.2).Sublist offs := (List.take_sublist _ _).trans (List.drop_sublist _ _)
      exact ⟨fun k hk => hlt k (hsub.subset hk), (hinc.sublist hsub).imp fun h => h.le⟩
    · rw [List.eq_of_mem_replicate hc]
      simp

/-! ## Closing -/

/-- A call of all processes that writes within `nt` traces. -/
def Writes (P nt : Nat) (s : Files.Step) : Prop :=
  (∃ f, s = .write f ∧ ∀ r, r < P → (f r).1 + (f r).2 ≤ nt) ∨
    ∃ f, s = .list f ∧ ∀ r, r < P → (∀ k ∈ f r, k < nt) ∧ (f r).Pairwise (· ≤ ·)

theorem last_writes {P nt : Nat} {α : Type} (sel : Files.Step → Option α) (h1 : ∀ f, sel (.write f) = none)
    (h2 : ∀ f, sel (.list f) = none) (ss h : List Files.Step) (hs : ∀ s ∈ ss, Writes P nt s) : last? sel (h ++ ss) = last? sel h := by
  unfold last?
  rw [List.filterMap_append]
  have : ss.filterMap sel = [] := by
    rw [List.filterMap_eq_nil_iff]
    intro x hx
    rcases hs x hx with ⟨f, rfl, -⟩ | ⟨f, rfl, -⟩
    · exact h1 f
    · exact h2 f
  rw [this, List.append_nil]

theorem writes_noerr {P nt r : Nat} (ss : List Files.Step) : ∀ w : W, w.err = false → w.nsSet = true →
    (∀ s ∈ ss, Writes P nt s) → (ss.foldl (Step.act r) w).err = false := by
  induction ss with
  | nil => intro w h _ _; exact h
  | cons s ss ih =>
    intro w h1 h2 hs
    have he : (s.act r w).err = false ∧ (s.act r w).nsSet = true := by
      rcases hs s (by simp) with ⟨f, rfl, -⟩ | ⟨f, rfl, -⟩
      · exact ⟨by show (w.err || !w.nsSet) = false; rw [h1, h2]; rfl, h2⟩
      · exact ⟨by show (w.err || !w.nsSet) = false; rw [h1, h2]; rfl, h2⟩
    exact ih _ he.1 he.2 fun s hs' => hs s (by simp [hs'])

theorem close_steps {nt ns P : Nat} {inc : ℚ} (hP : 0 < P) (h0 : 0 < ns) (h1 : ns ≤ 32767)
    (hsz : taddr ns nt < 2 ^ 63) (hinc : (2 : ℚ) ^ (-1022 : ℤ) ≤ |inc|) {m : ℤ} (hm0 : -2 ^ 63 ≤ m) (hm1 : m < 2 ^ 63)
    (hm : lround (rnd (inc / micro)) = m) (ss : List Files.Step) (hs : ∀ s ∈ ss, Writes P nt s) (o : Disk) :
    ∃ o', close ((List.range P).map fun r => ss.foldl (Step.act r) (headerCalls nt ns inc)) o = .ok o' ∧
      o'.size = plainSz nt ns ∧ (∀ x, 3600 ≤ x → o'.byte x = o.byte x) ∧
      openRead o' = .ok ⟨ns, nt, rnd (micro * (BitVec.ofInt 16 m).toInt), 5#16, CharEnc.readText (shown testText)⟩ := by
  obtain ⟨h, hh⟩ : ∃ h, h = [Files.Step.ns ns, .nt nt, .inc inc, .text testText] ++ ss := ⟨_, rfl⟩
  have hrun : ∀ r, ss.foldl (Step.act r) (headerCalls nt ns inc) = runW1 r h := by
    intro r
    unfold runW1
    rw [hh, List.foldl_append]
    rfl
  have heq : ((List.range P).map fun r => ss.foldl (Step.act r) (headerCalls nt ns inc)) = runAllW P h :=
    List.map_congr_left fun r _ => hrun r
  have hl : ∀ {α : Type} (sel : Files.Step → Option α), (∀ f, sel (.write f) = none) → (∀ f, sel (.list f) = none) →
      last? sel h = last? sel [.ns ns, .nt nt, .inc inc, .text testText] := by
    intro α sel a1 a2
    rw [hh]
    exact last_writes sel a1 a2 ss _ hs
  obtain ⟨a1, a2, a3⟩ := headerCalls_ns (nt := nt) h1 inc
  have hmem : ∀ s ∈ [Files.Step.inc inc, .text testText] ++ ss, (∀ f, s = .write f → Writes P nt s) ∧
      ∀ f, s = .list f → Writes P nt s := by
    intro s hs'
    rcases List.mem_append.1 hs' with h | h
    · simp only [List.mem_cons, List.not_mem_nil, or_false] at h
      rcases h with rfl | rfl <;> exact ⟨fun f h => (by cases h), fun f h => (by cases h)⟩
    · exact ⟨fun _ _ => hs s h, fun _ _ => hs s h⟩
  have hcount : IsCount P h nt := by
    refine Or.inl ⟨[.ns ns], [.inc inc, .text testText] ++ ss, by rw [hh]; rfl, ?_, fun r hr => ⟨?_, ?_, ?_⟩⟩
    · rw [last_writes Files.Step.nt? (fun _ => rfl) (fun _ => rfl) ss _ hs]
      rfl
    · intro f hf
      rcases (hmem _ hf).1 f rfl with ⟨g, hg, hw⟩ | ⟨g, hg, hw⟩
      · cases hg; exact hw r hr
      · cases hg
    · intro f hf
      rcases (hmem _ hf).2 f rfl with ⟨g, hg, hw⟩ | ⟨g, hg, hw⟩
      · cases hg
      · cases hg; exact (hw r hr).1
    · intro f hf
      rcases (hmem _ hf).2 f rfl with ⟨g, hg, hw⟩ | ⟨g, hg, hw⟩
      · cases hg
      · cases hg; exact (hw r hr).2
  rw [heq]
  have := close_stored P hP h o ns nt m ?_ ?_ (by omega) hcount hsz hm0 hm1 ?_ ?_
  · obtain ⟨o', e1, e2, e3, e4⟩ := this
    refine ⟨o', e1, e2, e3, ?_⟩
    rw [hl Files.Step.text? (fun _ => rfl) (fun _ => rfl)] at e4
    exact e4
  · intro r hr
    rw [← hrun]
    refine writes_noerr ss _ ?_ a2 hs
    rw [← Bool.not_eq_true, a3]
    exact not_lt.2 hinc
  · rw [hl Files.Step.ns? (fun _ => rfl) (fun _ => rfl)]; rfl
  · rw [hl Files.Step.inc? (fun _ => rfl) (fun _ => rfl)]; exact hm
  · rw [hl Files.Step.text? (fun _ => rfl) (fun _ => rfl)]
    show ∀ x ∈ testText, x < 256
    decide

theorem range_getD {α : Type} (l : List α) (d : α) : (List.range l.length).map (fun c => l[c]?.getD d) = l := by
  apply List.ext_getElem
  · simp
  · intro n h1 h2
    simp [h2]

/-- The calls of the processes, as calls of all. -/
theorem steps_write {P nt C : Nat} (calls : Nat → List (Nat × Nat)) (hlen : ∀ r, r < P → (calls r).length = C)
    (hle : ∀ r, r < P → ∀ c ∈ calls r, c.1 + c.2 ≤ nt) (w : W) :
    ∃ ss : List Files.Step, (∀ s ∈ ss, Writes P nt s) ∧ ∀ r, r < P → (calls r).foldl (fun w c => w.writeTrace c.1 c.2) w =
      ss.foldl (Step.act r) w := by
  refine ⟨(List.range C).map fun c => .write fun r => (calls r)[c]?.getD (0, 0), ?_, fun r hr => ?_⟩
  · intro s hs
    obtain ⟨c, hc, rfl⟩ := List.mem_map.1 hs
    refine Or.inl ⟨_, rfl, fun r hr => ?_⟩
    have hc := List.mem_range.1 hc
    rw [← hlen r hr] at hc
    rw [List.getElem?_eq_getElem hc]
    exact hle r hr _ (List.getElem_mem _)
  · rw [CCopy.foldl_writes r (fun r c => (calls r)[c]?.getD (0, 0)), ← hlen r hr, range_getD]

theorem foldl_lists (r : Nat) (g : Nat → Nat → List Nat) (l : List Nat) : ∀ w : W,
    (l.map fun c => Files.Step.list fun r => g r c).foldl (Step.act r) w = (l.map (g r)).foldl W.writeList w := by
  induction l with
  | nil => intro w; rfl
  | cons a l ih => intro w; exact ih _

theorem steps_list {P nt C : Nat} (calls : Nat → List (List Nat)) (hlen : ∀ r, r < P → (calls r).length = C)
    (hle : ∀ r, r < P → ∀ c ∈ calls r, (∀ k ∈ c, k < nt) ∧ c.Pairwise (· ≤ ·)) (w : W) :
    ∃ ss : List Files.Step, (∀ s ∈ ss, Writes P nt s) ∧ ∀ r, r < P → (calls r).foldl W.writeList w =
      ss.foldl (Step.act r) w := by
  refine ⟨(List.range C).map fun c => .list fun r => (calls r)[c]?.getD [], ?_, fun r hr => ?_⟩
  · intro s hs
    obtain ⟨c, hc, rfl⟩ := List.mem_map.1 hs
    refine Or.inr ⟨_, rfl, fun r hr => ?_⟩
    have hc := List.mem_range.1 hc
    rw [← hlen r hr] at hc
    rw [List.getElem?_eq_getElem hc]
    exact hle r hr _ (List.getElem_mem _)
  · rw [foldl_lists r (fun r c => (calls r)[c]?.getD []), ← hlen r hr, range_getD]

/-! ## All processes -/

theorem PutDone.congr {bits : Nat → BitVec 32} {nt ns : Nat} {num : Nat → Nat} {n : Nat} {o o' : Disk} (h : PutDone bits nt ns num n o)
    (he : ∀ j, j < n → ∀ x, taddr ns (num j) ≤ x ∧ x < taddr ns (num j) + (240 + 4 * ns) → o'.byte x = o.byte x) :
    PutDone bits nt ns num n o' := by
  refine ⟨fun j hj => (h.hdr j hj).congr fun x hx => he j hj x (by omega), fun j s hj hs => ?_⟩
  rw [dsamp_congr hs (fun x hx => he j hj x (by omega))]
  exact h.samples j s hj hs

/-- The traces of a piece. -/
def traces (q : Put) : List Nat := (List.range q.n).map q.pos.trace

theorem traces_eq {bits : Nat → BitVec 32} {nt ns : Nat} (num : Nat → Nat) (l : List (Nat × Nat)) : ∀ ps : List Put,
    List.Forall₂ (fun b q => PutIs bits nt ns (fun j => num (b.1 + j)) b.2 q) l ps →
    ps.flatMap traces = (l.flatMap fun b => List.range' b.1 b.2).map num := by
  induction l with
  | nil => intro ps h; cases h; rfl
  | cons b l ih =>
    intro ps h
    cases h with
    | cons h hl =>
      rename_i q ps
      rw [List.flatMap_cons, List.flatMap_cons, List.map_append, ih ps hl]
      congr 1
      unfold traces
      rw [h.count, List.range'_eq_map_range, List.map_map]
      exact List.map_congr_left fun j hj => h.trace j (List.mem_range.1 hj)

theorem all_spec {bits : Nat → BitVec 32} {nt ns P max : Nat} (hm : 1 ≤ max) {lnt : Nat → Nat} (num : Nat → Nat → Nat)
    (ps : Nat → List Put)
    (h : ∀ r, r < P → List.Forall₂ (fun b q => PutIs bits nt ns (fun j => num r (b.1 + j)) b.2 q) (pieces (lnt r) max (lnt r) 0)
      (ps r))
    (hnd : ((List.range P).flatMap fun r => (List.range (lnt r)).map (num r)).Nodup) {l : List Put}
    (hl : l.Perm ((List.range P).flatMap ps)) (o : Disk) :
    ∃ o', runBlocks (put ns) l o = .ok o' ∧
      ∀ r, r < P → ∀ b ∈ pieces (lnt r) max (lnt r) 0, PutDone bits nt ns (fun j => num r (b.1 + j)) b.2 o' := by
  have hof : ∀ q ∈ l, ∃ num n, PutIs bits nt ns num n q := by
    intro q hq
    obtain ⟨r, hr, hq⟩ := List.mem_flatMap.1 (hl.mem_iff.1 hq)
    obtain ⟨i, hi, rfl⟩ := List.mem_iff_getElem.1 hq
    have hf := h r (List.mem_range.1 hr)
    have hlen := hf.length_eq
    exact ⟨_, _, (List.forall₂_iff_get.1 hf).2 i (by omega) hi⟩
  have hnd' : (((List.range P).flatMap ps).flatMap traces).Nodup := by
    rw [List.flatMap_assoc]
    have : (List.range P).flatMap (fun r => (ps r).flatMap traces) = (List.range P).flatMap fun r => (List.range (lnt r)).map (num r) := by
      apply List.flatMap_congr
      intro r hr
      rw [traces_eq (num r) _ _ (h r (List.mem_range.1 hr)), (pieces_spec (lnt r) max hm (lnt r) 0 (by omega)).2.1, Nat.sub_zero,
        List.range_eq_range']
    rw [this]
    exact hnd
  rw [List.nodup_flatMap] at hnd'
  obtain ⟨o', e1, e2, -⟩ := run_disjoint (put ns)
    (fun q x => ∃ k ∈ traces q, taddr ns k ≤ x ∧ x < taddr ns k + (240 + 4 * ns))
    (fun q o => ∀ num n, PutIs bits nt ns num n q → PutDone bits nt ns num n o) l
    (by
      intro q hq o
      obtain ⟨num, n, hp⟩ := hof q hq
      obtain ⟨o', g1, g2, g3⟩ := put_spec hp o
      refine ⟨o', g1, ?_, ?_⟩
      · intro num' n' hp'
        obtain ⟨o2, k1, k2, -⟩ := put_spec hp' o
        rw [g1, Res.ok.injEq] at k1
        rw [k1]
        exact k2
      · intro x hx
        refine g3 x fun j hj hc => hx ⟨num j, ?_, hc⟩
        unfold traces
        rw [hp.count]
        exact List.mem_map.2 ⟨j, List.mem_range.2 hj, hp.trace j hj⟩)
    (by
      intro q hq o o' hQ he num n hp
      refine (hQ num n hp).congr fun j hj x hx => he x ⟨num j, ?_, hx⟩
      unfold traces
      rw [hp.count]
      exact List.mem_map.2 ⟨j, List.mem_range.2 hj, hp.trace j hj⟩)
    (by
      rw [hl.pairwise_iff (by rintro a b h x hb ha; exact h x ha hb)]
      refine hnd'.2.imp ?_
      rintro a b hab x ⟨k, hk, hx⟩ ⟨k', hk', hx'⟩
      rcases Nat.lt_trichotomy k k' with hc | hc | hc
      · have := taddr_le (ns := ns) hc; omega
      · subst hc; exact hab hk hk'
      · have := taddr_le (ns := ns) hc; omega) o
  refine ⟨o', e1, fun r hr b hb => ?_⟩
  obtain ⟨i, hi, rfl⟩ := List.mem_iff_getElem.1 hb
  have hf := h r hr
  have hlen := hf.length_eq
  have hp := (List.forall₂_iff_get.1 hf).2 i hi (by omega)
  exact e2 _ (hl.mem_iff.2 (List.mem_flatMap.2 ⟨r, List.mem_range.2 hr, List.get_mem _ _⟩)) _ _ hp

/-- A number of a share is in one of the pieces. -/
theorem in_piece {lnt max : Nat} (hm : 1 ≤ max) {i : Nat} (hi : i < lnt) :
    ∃ b ∈ pieces lnt max lnt 0, ∃ j, j < b.2 ∧ b.1 + j = i := by
  have := (pieces_spec lnt max hm lnt 0 (by omega)).2.1
  have hm' : i ∈ List.range' 0 (lnt - 0) := by rw [List.mem_range'_1]; omega
  rw [← this] at hm'
  obtain ⟨b, hb, h⟩ := List.mem_flatMap.1 hm'
  rw [List.mem_range'_1] at h
  exact ⟨b, hb, i - b.1, by omega, by omega⟩

/-! ## The program -/

/-- The parts put together. -/
theorem finish {bits : Nat → BitVec 32} {lob random : Bool} {nt ns P mem : Nat} {off lnt : Nat → Nat} {big : Nat}
    (h : Shares lob nt P off lnt big) (hP : 0 < P) (h0 : 0 < ns) (h1 : ns ≤ 32767) (hsz : taddr ns nt < 2 ^ 63)
    (hm : 1 ≤ perCall mem ns) {inc : ℚ} {m : ℤ} (hm0 : 1 ≤ m) (hm1 : m ≤ 32767) (hinc : |inc * 10 ^ 6 - m| ≤ 1 / 4)
    (num : Nat → Nat → Nat) (ps : Nat → List Put) (ss : List Files.Step) (hss : ∀ s ∈ ss, Writes P nt s)
    (hproc : ∀ r, r < P → process bits lob random P (perCall mem ns) nt ns (headerCalls nt ns inc) ((List.range P).map lnt) r =
      .ok (ps r, ss.foldl (Step.act r) (headerCalls nt ns inc)))
    (hput : ∀ r, r < P → List.Forall₂ (fun b q => PutIs bits nt ns (fun j => num r (b.1 + j)) b.2 q)
      (pieces (lnt r) (perCall mem ns) (lnt r) 0) (ps r))
    (hnd : ((List.range P).flatMap fun r => (List.range (lnt r)).map (num r)).Nodup)
    (sched : List Put → List Put) (hs : ∀ l, (sched l).Perm l) (out : Disk) :
    ∃ out', fileMake bits sched lob random P mem ns nt inc out = .ok out' ∧ out'.size = plainSz nt ns ∧
      openRead out' = .ok ⟨ns, nt, rnd (micro * m), 5#16, testText ++ List.replicate 3190 0⟩ ∧
      ∀ r, r < P → ∀ b ∈ pieces (lnt r) (perCall mem ns) (lnt r) 0,
        PutDone bits nt ns (fun j => num r (b.1 + j)) b.2 out' ∧ ∀ j, j < b.2 → 3600 ≤ taddr ns (num r (b.1 + j)) := by
  obtain ⟨i1, i2, i3⟩ := inc_ok hm0 hm1 hinc
  obtain ⟨a1, a2, a3⟩ := headerCalls_ns (nt := nt) h1 inc
  have he : (headerCalls nt ns inc).err = false := by
    rw [← Bool.not_eq_true, a3]
    exact not_lt.2 i1
  obtain ⟨o1, r1, r2⟩ := all_spec hm num ps hput hnd (hs ((List.range P).flatMap ps)) out
  obtain ⟨o2, c1, c2, c3, c4⟩ := close_steps hP h0 h1 hsz i1 (by omega) (by omega) i2 ss hss o1
  have htad : ∀ k, 3600 ≤ taddr ns k := fun k => by unfold taddr; omega
  refine ⟨o2, ?_, c2, ?_, fun r hr b hb => ⟨(r2 r hr b hb).congr fun j hj x hx => c3 x ((htad _).trans hx.1), fun j _ => htad _⟩⟩
  · unfold fileMake
    dsimp only
    rw [if_neg (by rw [he]; simp), collect_ok (g := fun r => (off r, lnt r, big)) (fun r hr => h.eq r (List.mem_range.1 hr)),
      Res.ok_bind, List.map_map]
    have hnum : (List.range P).map ((fun s : Nat × Nat × Nat => s.2.1) ∘ fun r => (off r, lnt r, big)) = (List.range P).map lnt := rfl
    rw [hnum, collect_ok (g := fun r => (ps r, ss.foldl (Step.act r) (headerCalls nt ns inc)))
      (fun r hr => hproc r (List.mem_range.1 hr)), Res.ok_bind, List.flatMap_map, a1]
    rw [r1, Res.ok_bind, List.map_map]
    exact c1
  · rw [c4, i3, text_again]

/-- The memory of `mebi` MiB holds three traces, and no more than fit in it. -/
theorem perCall_mebi {M ns : Nat} (hM0 : 1 ≤ M) (hM1 : M ≤ 2 ^ 40) (h1 : ns ≤ 32767) :
    3 ≤ perCall (mul64 M (2 ^ 20)) ns ∧ perCall (mul64 M (2 ^ 20)) ns < 2 ^ 63 ∧
      4 * (perCall (mul64 M (2 ^ 20)) ns * ns) ≤ 2 ^ 62 := by
  unfold perCall
  rw [getDOSz_eq (by omega), getDFSz_eq (by omega), mul64_eq (by omega), add64_eq (a := 240 + 4 * ns) (by omega),
    add64_eq (by omega)]
  obtain ⟨d, hd⟩ : ∃ d, 240 + 4 * ns + 4 * ns + 8 = d := ⟨_, rfl⟩
  rw [hd]
  have h2 : M * 2 ^ 20 / d * d ≤ M * 2 ^ 20 := Nat.div_mul_le_self _ _
  have h3 : M * 2 ^ 20 / d * (4 * ns) ≤ M * 2 ^ 20 / d * d := Nat.mul_le_mul_left _ (by omega)
  refine ⟨?_, ?_, ?_⟩
  · rw [Nat.le_div_iff_mul_le (by omega)]
    omega
  · have := Nat.div_le_self (M * 2 ^ 20) d
    omega
  · have e : M * 2 ^ 20 / d * (4 * ns) = 4 * (M * 2 ^ 20 / d * ns) := by ring
    omega

theorem taddr_bound {ns nt : Nat} (h1 : ns ≤ 32767) (hnt : nt ≤ 2 ^ 30) : taddr ns nt < 2 ^ 63 := by
  unfold taddr
  have : nt * (240 + 4 * ns) ≤ 2 ^ 30 * (240 + 4 * 32767) := Nat.mul_le_mul hnt (by omega)
  omega

theorem shares_all {lob : Bool} {nt P : Nat} (hP : 0 < P) (hnt : nt ≤ 2 ^ 30)
    (hlob : lob = true → (P - 1) * (P * (P + 1)) ≤ 4 * nt) : ∃ off lnt big, Shares lob nt P off lnt big := by
  cases lob
  · exact ⟨_, _, _, shares_even hP (by omega)⟩
  · exact shares_lob hP (by omega) (lob_enough hP (hlob rfl))

theorem contig_run (bits : Nat → BitVec 32) (sched : List Put → List Put) (hs : ∀ l, (sched l).Perm l) {lob : Bool}
    {P M ns nt : Nat} {off lnt : Nat → Nat} {big : Nat} (h : Shares lob nt P off lnt big) (hP : 0 < P)
    (hM0 : 1 ≤ M) (hM1 : M ≤ 2 ^ 40) (h0 : 0 < ns) (h1 : ns ≤ 32767) (hnt : nt ≤ 2 ^ 30)
    {inc : ℚ} {m : ℤ} (hm0 : 1 ≤ m) (hm1 : m ≤ 32767) (hinc : |inc * 10 ^ 6 - m| ≤ 1 / 4) (out : Disk) :
    ∃ out', filemake bits sched lob false P M ns nt inc out = .ok out' ∧ out'.size = plainSz nt ns ∧
      openRead out' = .ok ⟨ns, nt, rnd (micro * m), 5#16, testText ++ List.replicate 3190 0⟩ ∧
      ∀ k, k < nt → Hdr (row nt) ns k out' ∧ ∀ s, s < ns → dsamp out' ns k s = bits (k * ns + s) := by
  obtain ⟨p1, p2, p3⟩ := perCall_mebi hM0 hM1 h1
  have hsz := taddr_bound h1 hnt
  have hc := fun r (hr : r < P) => contig_spec bits h hnt hsz (show 1 ≤ perCall (mul64 M (2 ^ 20)) ns by omega) p3 p2
    (headerCalls nt ns inc) ((List.range P).map lnt) hr
  choose! ps calls q1 q2 q3 q4 using hc
  obtain ⟨ss, s1, s2⟩ := steps_write calls q3 q4 (headerCalls nt ns inc)
  obtain ⟨out', e1, e2, e3, e4⟩ := finish (random := false) h hP h0 h1 hsz (by omega) hm0 hm1 hinc (fun r i => off r + i) ps ss s1
    (fun r hr => by rw [q1 r hr, s2 r hr]) q2 (by rw [h.tile]; exact List.nodup_range) sched hs out
  have hi : inc ≠ 0 := by
    rintro rfl
    have := (inc_ok hm0 hm1 hinc).1
    rw [abs_zero] at this
    exact absurd this (not_le.2 (zpow_pos (by norm_num) _))
  refine ⟨out', ?_, e2, e3, fun k hk => ?_⟩
  · unfold filemake
    rw [if_neg (by push Not; exact ⟨by omega, hi⟩)]
    exact e1
  · have hmem : k ∈ (List.range P).flatMap (fun r => (List.range (lnt r)).map (off r + ·)) := by
      rw [h.tile]; exact List.mem_range.2 hk
    obtain ⟨r, hr, hmem⟩ := List.mem_flatMap.1 hmem
    obtain ⟨i, hi, rfl⟩ := List.mem_map.1 hmem
    have hr := List.mem_range.1 hr
    obtain ⟨b, hb, j, hj, rfl⟩ := in_piece (max := perCall (mul64 M (2 ^ 20)) ns) (by omega) (List.mem_range.1 hi)
    obtain ⟨d, -⟩ := e4 r hr b hb
    refine ⟨d.hdr j hj, fun s hs' => ?_⟩
    rw [d.samples j s hj hs']
    congr 2
    rw [Nat.add_zero, Nat.add_assoc]

theorem pairwise_gap {l : List Nat} (h : l.Pairwise (· < ·)) {i j : Nat} (hj : i + j < l.length) :
    l.getD i 0 + j ≤ l.getD (i + j) 0 := by
  induction j with
  | zero => simp
  | succ j ih =>
    have h1 := ih (by omega)
    have h2 : l.getD (i + j) 0 < l.getD (i + (j + 1)) 0 := by
      rw [List.getD_eq_getElem?_getD, List.getD_eq_getElem?_getD, List.getElem?_eq_getElem (by omega), List.getElem?_eq_getElem hj]
      exact List.pairwise_iff_getElem.1 h _ _ _ _ (by omega)
    omega

theorem random_run (bits : Nat → BitVec 32) (sched : List Put → List Put) (hs : ∀ l, (sched l).Perm l) {lob : Bool}
    {P M ns nt : Nat} {off lnt : Nat → Nat} {big : Nat} (h : Shares lob nt P off lnt big) (hP : 0 < P)
    (hM0 : 1 ≤ M) (hM1 : M ≤ 2 ^ 40) (h0 : 0 < ns) (h1 : ns ≤ 32767) (hnt : nt ≤ 2 ^ 30)
    {inc : ℚ} {m : ℤ} (hm0 : 1 ≤ m) (hm1 : m ≤ 32767) (hinc : |inc * 10 ^ 6 - m| ≤ 1 / 4) (out : Disk) :
    ∃ (out' : Disk) (offs : Nat → List Nat), filemake bits sched lob true P M ns nt inc out = .ok out' ∧ out'.size = plainSz nt ns ∧
      openRead out' = .ok ⟨ns, nt, rnd (micro * m), 5#16, testText ++ List.replicate 3190 0⟩ ∧
      (∀ r, r < P → randomOffsets nt ((List.range P).map lnt) r = .ok (offs r) ∧ (offs r).length = lnt r ∧
        (offs r).Pairwise (· < ·)) ∧ (∀ k, k < nt → ∃ r, r < P ∧ k ∈ offs r) ∧ (∀ r, r < P → ∀ k ∈ offs r, k < nt) ∧
      ∀ r, r < P → ∀ b ∈ pieces (lnt r) (perCall (mul64 M (2 ^ 20)) ns) (lnt r) 0,
        PutDone bits nt ns (fun j => (offs r).getD (b.1 + j) 0) b.2 out' := by
  obtain ⟨p1, p2, p3⟩ := perCall_mebi hM0 hM1 h1
  have hsz := taddr_bound h1 hnt
  have hsum := h.sum
  obtain ⟨offs, o1, o2, o3, o4, o5⟩ := C51_cover ((List.range P).map lnt) (by omega)
  rw [List.length_map, List.length_range] at o1
  rw [hsum] at o2 o5
  have hg : ∀ r (hr : r < P), offs.getD r [] = offs[r]'(by omega) := by
    intro r hr
    rw [List.getD_eq_getElem?_getD, List.getElem?_eq_getElem (by omega)]
    rfl
  have hm : ∀ r, r < P → offs.getD r [] ∈ offs := fun r hr => by rw [hg r hr]; exact List.getElem_mem _
  have hlen : ∀ r, r < P → (offs.getD r []).length = lnt r := by
    intro r hr
    have := congrArg (fun l => l[r]?) o3
    simp only [List.getElem?_map, List.getElem?_range hr, List.getElem?_eq_getElem (show r < offs.length by omega), Option.map_some,
      Option.some.injEq] at this
    rw [hg r hr, this]
  have hlt : ∀ r, r < P → ∀ x ∈ offs.getD r [], x < nt := fun r hr x hx =>
    List.mem_range.1 (o5.mem_iff.1 (List.mem_flatten.2 ⟨_, hm r hr, hx⟩))
  have hc := fun r (hr : r < P) => random_spec bits h hnt hsz (show 1 ≤ perCall (mul64 M (2 ^ 20)) ns by omega) p2
    (headerCalls nt ns inc) ((List.range P).map lnt) hr (offs := offs.getD r []) (by rw [hg r hr]; exact o2 r (by omega))
    (hlen r hr) (hlt r hr) (o4 _ (hm r hr))
  choose! ps calls q1 q2 q3 q4 using hc
  obtain ⟨ss, s1, s2⟩ := steps_list calls q3 q4 (headerCalls nt ns inc)
  have hflat : (List.range P).flatMap (fun r => (List.range (lnt r)).map fun i => (offs.getD r []).getD i 0) = offs.flatten := by
    rw [List.flatMap_def]
    congr 1
    apply List.ext_getElem
    · simp [o1]
    · intro r a1 a2
      have hr : r < P := by omega
      rw [List.getElem_map, List.getElem_range, ← hlen r hr, hg r hr]
      simpa [List.getD_eq_getElem?_getD] using range_getD offs[r] 0
  obtain ⟨out', e1, e2, e3, e4⟩ := finish (random := true) h hP h0 h1 hsz (by omega) hm0 hm1 hinc
    (fun r i => (offs.getD r []).getD i 0) ps ss s1
    (fun r hr => by rw [q1 r hr, s2 r hr]) q2 (by rw [hflat]; exact o5.nodup_iff.2 List.nodup_range) sched hs out
  have hi : inc ≠ 0 := by
    rintro rfl
    have := (inc_ok hm0 hm1 hinc).1
    rw [abs_zero] at this
    exact absurd this (not_le.2 (zpow_pos (by norm_num) _))
  refine ⟨out', fun r => offs.getD r [], ?_, e2, e3, fun r hr => ⟨by dsimp only; rw [hg r hr]; exact o2 r (by omega), hlen r hr, o4 _ (hm r hr)⟩,
    fun k hk => ?_, hlt, fun r hr b hb => (e4 r hr b hb).1⟩
  · unfold filemake
    rw [if_neg (by push Not; exact ⟨by omega, hi⟩)]
    exact e1
  · obtain ⟨l, hl, hk⟩ := List.mem_flatten.1 (o5.mem_iff.2 (List.mem_range.2 hk))
    obtain ⟨r, hr, rfl⟩ := List.mem_iff_getElem.1 hl
    exact ⟨r, by omega, by dsimp only; rw [hg r (by omega)]; exact hk⟩

theorem tent_min {nt k : Nat} (h : k < nt) : tent nt k = min k (2 * (nt / 2) - k) := by
  have := tent_cast h
  omega

theorem made_of {b : Nat → BitVec 32} {nt ns k : Nat} {o : Disk} (hk : k < nt) (hnt : nt ≤ 2 ^ 25 - 4800) (h : Hdr (row nt) ns k o)
    (hs : ∀ s, s < ns → dsamp o ns k s = b (k * ns + s)) :
    Made b ns k (2400 + min k (2 * (nt / 2) - k)) (1600 + min k (2 * (nt / 2) - k)) (min k (2 * (nt / 2) - k)) o := by
  have ht := tent_le nt k
  have e0 : single (tent nt k) = tent nt k := single_small (by omega)
  have h1 := h.made (row_coords nt) (row_dist (by omega) k) hs (il := 2400 + tent nt k) (xl := 1600 + tent nt k)
    ⟨.inr (BitVec.ofNat 64 k), by simp [row], narrow k⟩
    ⟨.inl ((single (2400 + single (tent nt k)) : Nat) : ℚ), by simp [row],
      by rw [e0, single_small (by omega)]; show (BitVec.ofInt 64 (trunc _)).setWidth 32 = _; rw [trunc_nat, BitVec.ofInt_natCast, narrow]⟩
    ⟨.inl ((single (1600 + single (tent nt k)) : Nat) : ℚ), by simp [row],
      by rw [e0, single_small (by omega)]; show (BitVec.ofInt 64 (trunc _)).setWidth 32 = _; rw [trunc_nat, BitVec.ofInt_natCast, narrow]⟩
  rw [e0, tent_min hk] at h1
  exact h1

/-- C89 (partial): `filemake` without `-r`, with even or uneven shares, ends on any number of processes, whatever the memory
and the order in which the pieces reach the file, with a file of `nt` traces of `ns` samples and the interval asked for; trace
`k` has its own number, the lines and coordinates that rise to the middle of the file and fall again, and the samples computed
from its own place. Missing: more than `2^25 - 4800` traces; uneven shares of few traces (`C60_refuted`); intervals that the
file cannot hold. -/
theorem C89_contiguous_partial (bits : Nat → BitVec 32) (sched : List Put → List Put) (hs : ∀ l, (sched l).Perm l)
    (lob : Bool) {P M ns nt : Nat} (hP : 0 < P) (hlob : lob = true → (P - 1) * (P * (P + 1)) ≤ 4 * nt)
    (hM0 : 1 ≤ M) (hM1 : M ≤ 2 ^ 40) (h0 : 0 < ns) (h1 : ns ≤ 32767) (hnt : nt ≤ 2 ^ 25 - 4800)
    {inc : ℚ} {m : ℤ} (hm0 : 1 ≤ m) (hm1 : m ≤ 32767) (hinc : |inc * 10 ^ 6 - m| ≤ 1 / 4) (out : Disk) :
    ∃ out', filemake bits sched lob false P M ns nt inc out = .ok out' ∧ out'.size = 3600 + nt * (240 + 4 * ns) ∧
      openRead out' = .ok ⟨ns, nt, rnd (micro * m), 5#16, testText ++ List.replicate 3190 0⟩ ∧
      ∀ k, k < nt → Made bits ns k (2400 + min k (2 * (nt / 2) - k)) (1600 + min k (2 * (nt / 2) - k)) (min k (2 * (nt / 2) - k)) out' := by
  obtain ⟨off, lnt, big, h⟩ := shares_all (lob := lob) hP (show nt ≤ 2 ^ 30 by omega) hlob
  obtain ⟨out', e1, e2, e3, e4⟩ := contig_run bits sched hs h hP hM0 hM1 h0 h1 (by omega) hm0 hm1 hinc out
  exact ⟨out', e1, e2, e3, fun k hk => made_of hk hnt (e4 k hk).1 (e4 k hk).2⟩

/-- The hypotheses: 100 traces of 7 samples at 4 ms, uneven shares, three processes. -/
example : ∃ o, filemake (BitVec.ofNat 32) List.reverse true false 3 64 7 100 (1 / 250) ⟨0, fun _ => 0#8⟩ = .ok o :=
  (C89_contiguous_partial (BitVec.ofNat 32) List.reverse (fun l => List.reverse_perm l) true (m := 4000) (by norm_num)
    (by norm_num) (by norm_num) (by norm_num) (by norm_num) (by norm_num) (by norm_num) (by norm_num) (by norm_num)
    (by norm_num) _).imp fun _ h => h.1

/-- C89 (partial): with `-r` the same holds of the headers, and the samples of trace `k` are those of a trace `g` no further
on. On one process that is the trace itself; on more it is not (`C89_scattered_refuted`). -/
theorem C89_scattered_partial (bits : Nat → BitVec 32) (sched : List Put → List Put) (hs : ∀ l, (sched l).Perm l)
    (lob : Bool) {P M ns nt : Nat} (hP : 0 < P) (hlob : lob = true → (P - 1) * (P * (P + 1)) ≤ 4 * nt)
    (hM0 : 1 ≤ M) (hM1 : M ≤ 2 ^ 40) (h0 : 0 < ns) (h1 : ns ≤ 32767) (hnt : nt ≤ 2 ^ 25 - 4800)
    {inc : ℚ} {m : ℤ} (hm0 : 1 ≤ m) (hm1 : m ≤ 32767) (hinc : |inc * 10 ^ 6 - m| ≤ 1 / 4) (out : Disk) :
    ∃ out', filemake bits sched lob true P M ns nt inc out = .ok out' ∧ out'.size = 3600 + nt * (240 + 4 * ns) ∧
      openRead out' = .ok ⟨ns, nt, rnd (micro * m), 5#16, testText ++ List.replicate 3190 0⟩ ∧
      ∀ k, k < nt → ∃ g, g ≤ k ∧ (P = 1 → g = k) ∧ Made (fun n => bits (n - k * ns + g * ns)) ns k
        (2400 + min k (2 * (nt / 2) - k)) (1600 + min k (2 * (nt / 2) - k)) (min k (2 * (nt / 2) - k)) out' := by
  obtain ⟨off, lnt, big, h⟩ := shares_all (lob := lob) hP (show nt ≤ 2 ^ 30 by omega) hlob
  obtain ⟨out', offs, e1, e2, e3, e4, e5, e7, e6⟩ := random_run bits sched hs h hP hM0 hM1 h0 h1 (by omega) hm0 hm1 hinc out
  refine ⟨out', e1, e2, e3, fun k hk => ?_⟩
  obtain ⟨r, hr, hko⟩ := e5 k hk
  obtain ⟨-, f2, f3⟩ := e4 r hr
  obtain ⟨i, hi, hik⟩ := List.mem_iff_getElem.1 hko
  have hik : (offs r).getD i 0 = k := by
    rw [List.getD_eq_getElem?_getD, List.getElem?_eq_getElem hi, ← hik]; rfl
  have hp := (perCall_mebi hM0 hM1 h1).1
  obtain ⟨b, hb, j, hj, rfl⟩ := in_piece (max := perCall (mul64 M (2 ^ 20)) ns) (by omega) (show i < lnt r by omega)
  have d := e6 r hr b hb
  have hgap := pairwise_gap f3 hi
  refine ⟨(offs r).getD b.1 0 + j, by omega, fun h1P => ?_, ?_⟩
  · have hln : lnt 0 = nt := by
      have := h.sum
      rw [h1P] at this
      simpa using this
    have hr0 : r = 0 := by omega
    subst hr0
    have h2 := pairwise_gap f3 (i := 0) (j := b.1) (by omega)
    have h3 := pairwise_gap f3 (i := b.1 + j) (j := nt - 1 - (b.1 + j)) (by omega)
    have h4 : (offs 0).getD (b.1 + j + (nt - 1 - (b.1 + j))) 0 < nt := by
      rw [List.getD_eq_getElem?_getD, List.getElem?_eq_getElem (by omega)]
      exact e7 0 hr _ (List.getElem_mem _)
    rw [Nat.zero_add] at h2
    omega
  · refine made_of hk hnt ?_ ?_
    · have := d.hdr j hj
      rwa [hik] at this
    · intro s hs'
      have := d.samples j s hj hs'
      rw [hik] at this
      rw [this, Nat.add_zero, Nat.add_sub_cancel_left, Nat.add_comm]

/-- C89 fails with `-r` on several processes with more traces than processes: the trace whose number is the number of processes
holds the samples of trace 1, because the samples of a piece are numbered on from its first trace
(`util/filemake.cc` 115-118) although the traces of a piece lie apart. -/
theorem C89_scattered_refuted (bits : Nat → BitVec 32) (sched : List Put → List Put) (hs : ∀ l, (sched l).Perm l)
    {P M ns nt : Nat} (hP : 2 ≤ P) (hlt : P < nt)
    (hM0 : 1 ≤ M) (hM1 : M ≤ 2 ^ 40) (h0 : 0 < ns) (h1 : ns ≤ 32767) (hnt : nt ≤ 2 ^ 30)
    {inc : ℚ} {m : ℤ} (hm0 : 1 ≤ m) (hm1 : m ≤ 32767) (hinc : |inc * 10 ^ 6 - m| ≤ 1 / 4) (out : Disk) :
    ∃ out', filemake bits sched false true P M ns nt inc out = .ok out' ∧ (∀ s, s < ns → dsamp out' ns P s = bits (ns + s)) ∧
      (bits ns ≠ bits (P * ns) → ¬ ∃ il xl x, Made bits ns P il xl x out') := by
  have h := shares_even (nt := nt) (P := P) (by omega) (by omega)
  obtain ⟨out', offs, e1, e2, e3, e4, e5, e7, e6⟩ := random_run bits sched hs h (by omega) hM0 hM1 h0 h1 hnt hm0 hm1 hinc out
  have hq : 1 ≤ nt / P := by rw [Nat.le_div_iff_mul_le (by omega)]; omega
  have hpos : ∀ r, 1 ≤ Decomp.sz nt P r := fun r => by unfold Decomp.sz; omega
  have h2 : 2 ≤ Decomp.sz nt P 0 := by
    unfold Decomp.sz
    have := Nat.div_add_mod nt P
    rcases Nat.lt_or_ge 1 (nt / P) with hc | hc
    · omega
    · have hc : nt / P = 1 := by omega
      rw [hc] at this ⊢
      rw [if_pos (by omega)]
  have hsum := h.sum
  obtain ⟨o, r1, r2, r3⟩ := randomOffsets_round ((List.range P).map (Decomp.sz nt P)) (by omega)
    (by intro x hx; obtain ⟨r, -, rfl⟩ := List.mem_map.1 hx; exact hpos r) (r := 0) (by simp; omega)
  obtain ⟨f1, f2, f3⟩ := e4 0 (by omega)
  rw [hsum, f1, Res.ok.injEq] at r1
  subst r1
  have r3 := r3 rfl (by
    rw [List.getD_eq_getElem?_getD, List.getElem?_map, List.getElem?_range (by omega)]
    exact h2)
  rw [List.length_map, List.length_range] at r3
  have hp := (perCall_mebi hM0 hM1 h1).1
  obtain ⟨b, hb, hb0, hb1⟩ : ∃ b ∈ pieces (Decomp.sz nt P 0) (perCall (mul64 M (2 ^ 20)) ns) (Decomp.sz nt P 0) 0, b.1 = 0 ∧ 2 ≤ b.2 := by
    obtain ⟨n, hn⟩ : ∃ n, Decomp.sz nt P 0 = n + 1 := ⟨Decomp.sz nt P 0 - 1, by omega⟩
    rw [hn]
    unfold pieces
    rw [if_pos (by omega)]
    refine ⟨_, List.mem_cons_self, rfl, ?_⟩
    show 2 ≤ if 0 + perCall (mul64 M (2 ^ 20)) ns < n + 1 then perCall (mul64 M (2 ^ 20)) ns else n + 1 - 0
    split <;> omega
  have d := e6 0 (by omega) b hb
  have hg0 : (offs 0).getD 0 0 = 0 := by rw [List.getD_eq_getElem?_getD, r2]; rfl
  have hg1 : (offs 0).getD 1 0 = P := by rw [List.getD_eq_getElem?_getD, r3]; rfl
  have hsam : ∀ s, s < ns → dsamp out' ns P s = bits (ns + s) := by
    intro s hs'
    have := d.samples 1 s (by omega) hs'
    rw [hb0, Nat.zero_add, hg1, hg0, Nat.zero_add, Nat.one_mul] at this
    exact this
  refine ⟨out', e1, hsam, ?_⟩
  rintro hne ⟨il, xl, x, hmade⟩
  have := hmade.samples 0 h0
  rw [hsam 0 h0] at this
  exact hne this

/-- The hypotheses: 100 traces of 7 samples at 4 ms on three processes, in any mode. -/
example : (∃ o, filemake (BitVec.ofNat 32) List.reverse true true 3 64 7 100 (1 / 250) ⟨0, fun _ => 0#8⟩ = .ok o) ∧
    ∃ o, filemake (BitVec.ofNat 32) List.reverse false true 3 64 7 100 (1 / 250) ⟨0, fun _ => 0#8⟩ = .ok o ∧
      ¬ ∃ il xl x, Made (BitVec.ofNat 32) 7 3 il xl x o := by
  obtain ⟨o, h, -⟩ := C89_scattered_partial (BitVec.ofNat 32) List.reverse (fun l => List.reverse_perm l) true (P := 3) (M := 64)
    (ns := 7) (nt := 100) (inc := 1 / 250) (m := 4000) (by norm_num)
    (by norm_num) (by norm_num) (by norm_num) (by norm_num) (by norm_num) (by norm_num) (by norm_num) (by norm_num)
    (by norm_num) ⟨0, fun _ => 0#8⟩
  obtain ⟨o', h', -, h2⟩ := C89_scattered_refuted (BitVec.ofNat 32) List.reverse (fun l => List.reverse_perm l) (P := 3) (M := 64)
    (ns := 7) (nt := 100) (inc := 1 / 250) (m := 4000) (by norm_num)
    (by norm_num) (by norm_num) (by norm_num) (by norm_num) (by norm_num) (by norm_num) (by norm_num) (by norm_num)
    (by norm_num) ⟨0, fun _ => 0#8⟩
  exact ⟨⟨o, h⟩, o', h', h2 (by decide)⟩

/-- C89 fails for large files: from `2^25 + 2` traces the two traces in front of number `2^24 + 2` have the same lines, because
their number is converted to single precision (`util/filemake.cc` 36). -/
theorem C89_lines_refuted (bits : Nat → BitVec 32) (sched : List Put → List Put) (hs : ∀ l, (sched l).Perm l)
    {P M ns nt : Nat} (hP : 0 < P) (hlo : 2 ^ 25 + 2 ≤ nt)
    (hM0 : 1 ≤ M) (hM1 : M ≤ 2 ^ 40) (h0 : 0 < ns) (h1 : ns ≤ 32767) (hnt : nt ≤ 2 ^ 30)
    {inc : ℚ} {m : ℤ} (hm0 : 1 ≤ m) (hm1 : m ≤ 32767) (hinc : |inc * 10 ^ 6 - m| ≤ 1 / 4) (out : Disk) :
    ∃ out', filemake bits sched false false P M ns nt inc out = .ok out' ∧
      be32 out' ns (2 ^ 24) 189 = be32 out' ns (2 ^ 24 + 1) 189 ∧ be32 out' ns (2 ^ 24) 193 = be32 out' ns (2 ^ 24 + 1) 193 := by
  have h := shares_even (nt := nt) (P := P) (by omega) (by omega)
  obtain ⟨out', e1, e2, e3, e4⟩ := contig_run bits sched hs h hP hM0 hM1 h0 h1 hnt hm0 hm1 hinc out
  have t1 : tent nt (2 ^ 24) = 2 ^ 24 := by unfold tent; omega
  have t2 : tent nt (2 ^ 24 + 1) = 2 ^ 24 + 1 := by unfold tent; omega
  have s1 : single (2 ^ 24 + 1) = single (2 ^ 24) := by decide +kernel
  have key : ∀ k, k < nt → be32 out' ns k 189 = BitVec.ofNat 32 (single (2400 + single (tent nt k))) ∧
      be32 out' ns k 193 = BitVec.ofNat 32 (single (1600 + single (tent nt k))) := by
    intro k hk
    have hm := (e4 k hk).1.made (row_coords nt) (row_dist (by omega) k) (e4 k hk).2 (il := single (2400 + single (tent nt k)))
      (xl := single (1600 + single (tent nt k)))
      ⟨.inr (BitVec.ofNat 64 k), by simp [row], narrow k⟩
      ⟨.inl ((single (2400 + single (tent nt k)) : Nat) : ℚ), by simp [row],
        by show (BitVec.ofInt 64 (trunc _)).setWidth 32 = _; rw [trunc_nat, BitVec.ofInt_natCast, narrow]⟩
      ⟨.inl ((single (1600 + single (tent nt k)) : Nat) : ℚ), by simp [row],
        by show (BitVec.ofInt 64 (trunc _)).setWidth 32 = _; rw [trunc_nat, BitVec.ofInt_natCast, narrow]⟩
    exact ⟨hm.inline, hm.crossline⟩
  refine ⟨out', e1, ?_, ?_⟩
  · rw [(key _ (by omega)).1, (key (2 ^ 24 + 1) (by omega)).1, t1, t2, s1]
  · rw [(key _ (by omega)).2, (key (2 ^ 24 + 1) (by omega)).2, t1, t2, s1]

/-- C89 fails for a limit below the size of a trace, which the option `-m` gives if the number of MiB is a multiple of `2^44`:
the division by zero is undefined (`util/filemake.cc` 169-171, 243). -/
theorem C89_memory_refuted (bits : Nat → BitVec 32) (sched : List Put → List Put) (random : Bool) {P M ns nt : Nat} (hP : 0 < P)
    (hM0 : 1 ≤ M) (hM : 2 ^ 44 ∣ M) (h1 : ns ≤ 32767) (hnt : nt ≤ 2 ^ 30)
    {inc : ℚ} {m : ℤ} (hm0 : 1 ≤ m) (hm1 : m ≤ 32767) (hinc : |inc * 10 ^ 6 - m| ≤ 1 / 4) (out : Disk) :
    filemake bits sched false random P M ns nt inc out = .ub := by
  have h := shares_even (nt := nt) (P := P) (by omega) (by omega)
  obtain ⟨i1, i2, i3⟩ := inc_ok hm0 hm1 hinc
  obtain ⟨a1, a2, a3⟩ := headerCalls_ns (nt := nt) h1 inc
  have he : (headerCalls nt ns inc).err = false := by
    rw [← Bool.not_eq_true, a3]
    exact not_lt.2 i1
  have hi : inc ≠ 0 := by
    rintro rfl
    rw [abs_zero] at i1
    exact absurd i1 (not_le.2 (zpow_pos (by norm_num) _))
  have hz : mul64 M (2 ^ 20) = 0 := by
    obtain ⟨c, rfl⟩ := hM
    unfold mul64
    omega
  have hp : perCall 0 ns = 0 := by unfold perCall; exact Nat.zero_div _
  unfold filemake
  rw [if_neg (by push Not; exact ⟨by omega, hi⟩), hz]
  unfold fileMake
  dsimp only
  rw [if_neg (by rw [he]; simp), collect_ok (g := fun r => (Decomp.off nt P r, Decomp.sz nt P r, _)) (fun r hr => h.eq r (List.mem_range.1 hr)),
    Res.ok_bind]
  obtain ⟨P, rfl⟩ : ∃ n, P = n + 1 := ⟨P - 1, by omega⟩
  rw [List.range_succ_eq_map]
  unfold collect process
  rw [h.eq 0 (by omega), Res.ok_bind]
  dsimp only
  unfold extraCalls
  rw [hp, if_pos rfl]
  rfl

/-- The hypotheses of the last two: `2^25 + 2` traces of one sample with enough memory, and one trace with `2^44` MiB. -/
example : (∃ o, filemake (fun _ => 0#32) id false false 4 64 1 (2 ^ 25 + 2) (1 / 1000) ⟨0, fun _ => 0#8⟩ = .ok o) ∧
    filemake (fun _ => 0#32) id false false 1 (2 ^ 44) 1 1 (1 / 1000) ⟨0, fun _ => 0#8⟩ = .ub := by
  obtain ⟨o, h, -⟩ := C89_lines_refuted (fun _ => 0#32) id (fun l => List.Perm.refl l) (P := 4) (M := 64)
    (ns := 1) (nt := 2 ^ 25 + 2) (inc := 1 / 1000) (m := 1000) (by norm_num)
    (by norm_num) (by norm_num) (by norm_num) (by norm_num) (by norm_num) (by norm_num) (by norm_num) (by norm_num)
    (by norm_num) ⟨0, fun _ => 0#8⟩
  exact ⟨⟨o, h⟩, C89_memory_refuted (fun _ => 0#32) id false (m := 1000) (by norm_num) (by norm_num) (by norm_num) (by norm_num)
    (by norm_num) (by norm_num) (by norm_num) (by norm_num) _⟩

end Verif.Gen
