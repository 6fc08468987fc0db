import Verif.Util.RepTool
import Verif.Props.MakeRep
import Verif.Props.MakeRepStd
import Verif.Props.Output

/-!
# C93: the whole of `makerep`
-/

namespace Verif.Util
open Verif.Decomp Verif.Files Verif.Endian Verif.Layout Verif.FP Verif.Flow

/-! ### One process -/

/-- One process gets all, whatever the blocks. -/
theorem blockDecomp_one (sz o : Nat) (h64 : o + sz + 2 * 2097152 < 2 ^ 64) : blockDecomp sz 2097152 1 0 o = .ok ⟨0, sz⟩ := by
  have he := Nat.mod_lt o (show 0 < 2097152 by omega)
  have hre := Nat.mod_lt (o + sz) (show 0 < 2097152 by omega)
  have h1 := Nat.div_add_mod o 2097152
  have h2 := Nat.div_add_mod (o + sz) 2097152
  obtain ⟨k, hk, e⟩ : ∃ k, k * 2097152 < 2 ^ 64 + 2097152 + 1 ∧ 1 ≤ k ∧ 
      (sub64 (sub64 sz (2097152 - o % 2097152)) ((o + sz) % 2097152) = 
        if k = 1 then 2 ^ 64 - 2097152 else (k - 2) * 2097152) ∧ sz + o % 2097152 + 2097152 = k * 2097152 + (o + sz) % 2097152 := by
    refine ⟨(o + sz) / 2097152 - o / 2097152 + 1, by omega, by omega, ?_, by omega⟩
    by_cases hq : o / 2097152 = (o + sz) / 2097152
    · rw [if_pos (by omega)]
      by_cases hz : sz < 2097152 - o % 2097152
      · rw [sub64_wrap hz (by omega), sub64_eq (by omega) (by omega)]
        omega
      · omega
    · rw [if_neg (by omega), sub64_eq (a := sz) (by omega) (by omega), sub64_eq (by omega) (by omega)]
      omega
  obtain ⟨hk1, e1, e2⟩ := e
  unfold blockDecomp
  rw [if_neg (by omega)]
  simp only
  rw [sub64_eq (a := 2097152) (b := o % 2097152) he.le (by omega), add64_eq (a := o) (by omega), e1]
  have hmod : (if k = 1 then 2 ^ 64 - 2097152 else (k - 2) * 2097152) % 2097152 = 0 := by split <;> omega
  obtain ⟨c, hc, hc'⟩ : ∃ c, add64 ((if k = 1 then 2 ^ 64 - 2097152 else (k - 2) * 2097152) / 2097152) 2 = c ∧
      mul64 c 2097152 = k * 2097152 % 2 ^ 64 ∧ c < 2 ^ 64 := by
    refine ⟨_, rfl, ?_, ?_⟩
    · unfold add64 mul64
      split <;> omega
    · unfold add64
      omega
  rw [hmod, if_neg (by simp), hc, blockDecomposition_eq (by omega) (by omega) hc'.2, Res.ok_bind]
  have hs : Verif.Decomp.sz c 1 0 = c := by simp [Verif.Decomp.sz, Nat.mod_one]
  have hkb : k * 2097152 % 2 ^ 64 = k * 2097152 := Nat.mod_eq_of_lt (by omega)
  simp only [off_zero, hs, hc'.1, hkb]
  rw [if_neg (by omega), show mul64 0 2097152 = 0 from rfl, if_pos trivial, if_pos trivial,
    sub64_eq (a := 2097152) (b := 2097152 - o % 2097152) (by omega) (by omega),
    sub64_eq (a := 2097152) (b := (o + sz) % 2097152) (by omega) (by omega),
    sub64_eq (a := k * 2097152) (by omega) (by omega), add64_eq (by omega), if_pos (by omega), sub64_eq (by omega) (by omega)]
  rw [show k * 2097152 - (2097152 - (2097152 - o % 2097152)) - (2097152 - (o + sz) % 2097152) = sz by omega]

theorem decs_one (sz o : Nat) (h64 : o + sz + 2 * 2097152 < 2 ^ 64) : decsFrom sz 1 o 1 0 = .ok [⟨0, sz⟩] := by
  unfold decsFrom
  rw [blockDecomp_one sz o h64]
  rfl

theorem repeat_one (fsz t : Nat) (buf : List (Option Nat)) (hb : buf.length = t) (n j : Nat) (d : Dec)
    (h64 : ∀ m, m < j + n → 3600 + (fsz - 3600) * m + t + 2 * 2097152 < 2 ^ 64) :
    repeatArb 1 fsz 0 t n j [⟨d, buf⟩] = .ok ((List.range' j n).map fun m => ⟨3600 + (fsz - 3600) * m, buf⟩) := by
  induction n generalizing j d with
  | zero => rfl
  | succ n ih =>
    have hw : writeArb 1 (headerSz + (fsz - headerSz) * j + 0) t [⟨d, buf⟩] =
        .ok ([⟨⟨0, t⟩, buf⟩], [⟨3600 + (fsz - 3600) * j, buf⟩]) := by
      unfold writeArb
      rw [show headerSz = 3600 from rfl, Nat.add_zero, decs_one t _ (h64 j (by omega)), Res.ok_bind, if_neg (by simp), Res.ok_bind]
      simp only [List.map_cons, List.map_nil, putAll]
      rw [if_neg (by omega), Res.ok_bind, Res.ok_bind, List.take_of_length_le (by omega)]
      rfl
    unfold repeatArb
    rw [hw, Res.ok_bind]
    simp only
    rw [ih (j + 1) ⟨0, t⟩ (fun m hm => h64 m (by omega)), Res.ok_bind]
    rfl

/-- The standard version on one process repeats the traces of every file that is not larger than `2^30` bytes. -/
theorem standard_one (fsz rep : Nat) (hf : 3600 < fsz) (hf' : fsz ≤ 1073741824) (hr : 1 ≤ rep)
    (h64 : 3600 + (fsz - 3600) * rep + fsz + 2 * 2097152 < 2 ^ 64) :
    ∃ ps, standardCopy 1 fsz rep = .ok ps ∧ RepeatsBytes fsz rep ps := by
  have hst : stepSz 1 = 1073741824 := by decide
  have hm : ∀ m, m < 1 + (rep - 1) → 3600 + (fsz - 3600) * m + (fsz - 3600) + 2 * 2097152 < 2 ^ 64 := by
    intro m hm
    have := Nat.mul_le_mul_left (fsz - 3600) (show m ≤ rep by omega)
    omega
  have hround : standardRound 1 fsz rep 0 (stepSz 1) = .ok (⟨0, (List.range' 0 fsz).map some⟩ ::
      (List.range' 1 (rep - 1)).map fun m => ⟨3600 + (fsz - 3600) * m, (List.range' 3600 (fsz - 3600)).map some⟩) := by
    unfold standardRound
    simp only
    rw [if_neg (by omega), Nat.sub_zero, decs_one fsz 0 (by omega), Res.ok_bind, if_pos trivial]
    simp only [List.map_cons, List.map_nil, Nat.zero_add]
    have hd : dropHeader [⟨⟨0, fsz⟩, (List.range' 0 fsz).map some⟩] =
        .ok [⟨⟨0, fsz - 3600⟩, (List.range' 3600 (fsz - 3600)).map some⟩] := by
      unfold dropHeader dropHeader
      rw [if_pos rfl, if_neg (by rw [List.length_map, List.length_range', show headerSz = 3600 from rfl]; omega), Res.ok_bind,
        ← List.map_drop, List.drop_range']
      rw [show headerSz = 3600 from rfl, show 0 + 3600 * 1 = 3600 by omega]
    rw [hd, Res.ok_bind, show headerSz = 3600 from rfl,
      repeat_one fsz (fsz - 3600) _ (by rw [List.length_map, List.length_range']) (rep - 1) 1 _ hm, Res.ok_bind]
    rfl
  refine ⟨⟨0, (List.range' 0 fsz).map some⟩ ::
      (List.range' 1 (rep - 1)).map fun m => ⟨3600 + (fsz - 3600) * m, (List.range' 3600 (fsz - 3600)).map some⟩, ?_, ?_⟩
  · unfold standardCopy
    obtain ⟨f, hf2⟩ : ∃ f, fsz = f + 2 := ⟨fsz - 2, by omega⟩
    have := loop_one 1 fsz rep (stepSz 1) f _ (by omega) (by omega) hround
    rw [← hf2] at this
    exact this
  · have hget : ∀ a n k (b : Option Nat), ((List.range' a n).map some)[k]? = some b → k < n ∧ b = some (a + k) := by
      intro a n k b hb
      rw [List.getElem?_map] at hb
      have hk : k < n := by
        by_contra hc
        rw [List.getElem?_eq_none (by simp; omega)] at hb
        simp at hb
      rw [List.getElem?_range' hk] at hb
      simp only [Option.map_some, Option.some.injEq, Nat.one_mul] at hb
      exact ⟨hk, hb.symm⟩
    constructor
    · intro p hp k b hb
      rcases List.mem_cons.1 hp with rfl | hp
      · obtain ⟨h1, h2⟩ := hget 0 fsz k b hb
        dsimp only
        rw [Nat.zero_add] at *
        rw [wanted_first h1]
        exact ⟨in_rep hr h1, h2⟩
      · obtain ⟨m, hm', rfl⟩ := List.mem_map.1 hp
        rw [List.mem_range'_1] at hm'
        dsimp only at hb
        obtain ⟨h1, h2⟩ := hget 3600 (fsz - 3600) k b hb
        have h3 := wanted_rep (fsz := fsz) (q := 3600 + k) (j := m) (by omega) (by omega)
        have h4 := rep_le (fsz := fsz) (rep := rep) (j := m) (q := 3600 + k) (by omega) (by omega) (by omega)
        rw [Nat.add_sub_cancel_left] at h3 h4
        dsimp only
        exact ⟨h4, by rw [h3, h2]⟩
    · intro q hq
      by_cases hqf : q < fsz
      · refine ⟨_, List.mem_cons_self, ?_⟩
        simp
        exact hqf
      · obtain ⟨x, j, x1, x2, x3, x4⟩ := split_rep hf hq (by omega)
        have hj : 1 ≤ j := by
          by_contra hc
          rw [show j = 0 by omega] at x4
          omega
        refine ⟨⟨3600 + (fsz - 3600) * j, (List.range' 3600 (fsz - 3600)).map some⟩,
          List.mem_cons_of_mem _ (List.mem_map.2 ⟨j, List.mem_range'_1.2 (by omega), rfl⟩), ?_, ?_⟩
        · dsimp only; omega
        · dsimp only; rw [List.length_map, List.length_range']; omega

theorem naive2_one (fsz rep : Nat) (hf : 3600 < fsz) (hf' : fsz ≤ 1073741824) (hr : 1 ≤ rep)
    (h64 : 3600 + (fsz - 3600) * rep + fsz + 2 * 2097152 < 2 ^ 64) :
    ∃ cs : List (List Copy), cs.length = 1 ∧ (∀ r (h : r < cs.length), naive2 fsz rep 1 r = .ok cs[r]) ∧
      Repeats fsz rep cs.flatten := by
  have hst : stepSz 1 = 1073741824 := by decide
  refine one_piece fsz rep (stepSz 1) 1 (fun r rblock i => blockDecomp rblock 2097152 1 r i) [⟨0, fsz⟩] hf (by omega) hr (by omega)
    rfl ?_ ?_ ?_ ?_
  · intro r h
    have : r = 0 := by simpa using h
    subst this
    exact blockDecomp_one fsz 0 (by omega)
  · rw [List.flatMap_cons, List.flatMap_nil, List.append_nil]
    show List.range' 0 fsz = _
    rw [List.range_eq_range']
  · simp only [List.mem_singleton]
    rintro d rfl
    exact Or.inl ⟨rfl, hf.le⟩
  · simp only [List.mem_singleton]
    rintro d rfl
    exact Nat.zero_le _

/-! ### All versions -/

theorem putsOf_ok {f : Nat → Res (List Copy)} (cs : List (List Copy)) : ∀ (r : Nat), (∀ i (h : i < cs.length), f (r + i) = .ok cs[i]) →
    putsOf f cs.length r = .ok (cs.flatten.map Copy.put) := by
  induction cs with
  | nil => intro r _; rfl
  | cons c cs ih =>
    intro r h
    have h0 := h 0 (by simp)
    rw [Nat.add_zero, List.getElem_cons_zero] at h0
    rw [List.length_cons, putsOf, h0, Res.ok_bind, ih (r + 1) (fun i hi => by
      have := h (i + 1) (by simpa using hi)
      rw [List.getElem_cons_succ] at this
      rw [show r + 1 + i = r + (i + 1) by omega]
      exact this), Res.ok_bind, List.flatten_cons, List.map_append]

theorem Repeats.bytes {fsz rep : Nat} {cs : List Copy} (h : Repeats fsz rep cs) : RepeatsBytes fsz rep (cs.map Copy.put) := by
  constructor
  · intro p hp k b hb
    obtain ⟨c, hc, rfl⟩ := List.mem_map.1 hp
    unfold Copy.put at hb ⊢
    rw [List.getElem?_map] at hb
    have hk : k < c.len := by
      by_contra hk
      rw [List.getElem?_eq_none (by simp; omega)] at hb
      simp at hb
    rw [List.getElem?_range' hk] at hb
    simp only [Option.map_some, Option.some.injEq, Nat.one_mul] at hb
    obtain ⟨h1, h2⟩ := h.1 c hc k hk
    exact ⟨h1, by rw [← hb, h2]⟩
  · intro q hq
    obtain ⟨c, hc, h1, h2⟩ := h.2 q hq
    exact ⟨c.put, List.mem_map.2 ⟨c, hc, rfl⟩, h1, by unfold Copy.put; rw [List.length_map, List.length_range']; exact h2⟩

/-- The files, versions and numbers of processes for which the writes are right: small files, and files that are copied in
one piece (1 GiB for each process), which for the versions with blocks on several processes have to be larger than a block. -/
structure Fits (v : Version) (rep N fsz : Nat) : Prop where
  hN : 1 ≤ N
  hr : 1 ≤ rep
  hf : 3600 < fsz
  h63 : 3600 + (fsz - 3600) * rep + fsz + 2 * 2097152 < 2 ^ 63
  size : fsz / N < 3600 ∨ fsz ≤ N * 1073741824 ∧ (v = .naive1 ∨ N = 1 ∨ 2097152 + 3600 ≤ fsz)

theorem repPuts_ok {v : Version} {rep N fsz : Nat} (h : Fits v rep N fsz) :
    ∃ ps, repPuts v rep N fsz = .ok ps ∧ RepeatsBytes fsz rep ps := by
  obtain ⟨hN, hr, hf, h63, hsz⟩ := h
  unfold repPuts
  rw [show headerSz = 3600 from rfl]
  have key : ∀ f : Nat → Res (List Copy), (∃ cs : List (List Copy), cs.length = N ∧ (∀ r (h : r < cs.length), f r = .ok cs[r]) ∧
      Repeats fsz rep cs.flatten) → ∃ ps, putsOf f N 0 = .ok ps ∧ RepeatsBytes fsz rep ps := by
    rintro f ⟨cs, h1, h2, h3⟩
    refine ⟨_, ?_, h3.bytes⟩
    rw [← h1]
    exact putsOf_ok cs 0 fun i hi => by rw [Nat.zero_add]; exact h2 i hi
  by_cases hs : fsz / N < 3600
  · rw [if_pos hs]
    exact key _ (C59_small fsz rep N hf.le hr hN)
  · rw [if_neg hs]
    rcases hsz with h | ⟨h1, h2⟩
    · exact absurd h hs
    · cases v with
      | block =>
        rcases h2 with h | rfl | h
        · cases h
        · exact standard_one fsz rep hf (by omega) hr (by omega)
        · exact C59_standard_partial fsz rep N hN h h1 hr (by omega)
      | naive1 => exact key _ (C59_naive_partial fsz rep N hN hf (by omega) h1 hr (by omega))
      | naive2 =>
        rcases h2 with h | rfl | h
        · cases h
        · exact key _ (naive2_one fsz rep hf (by omega) hr (by omega))
        · exact key _ (C59_blocks_partial fsz rep N hN (by omega) h1 hr (by omega))

/-! ### The file -/

theorem apply_byte (inp : Disk) (junk : Byte) (o : Disk) (p : Put) (x : Nat) :
    (∃ b, p.dst ≤ x ∧ p.bytes[x - p.dst]? = some b ∧ (p.apply inp junk o).byte x = putByte inp junk b) ∨
    ((x < p.dst ∨ p.dst + p.bytes.length ≤ x) ∧ (p.apply inp junk o).byte x = o.byte x) := by
  unfold Put.apply
  dsimp only
  by_cases h : p.dst ≤ x
  · rw [if_pos h]
    cases hb : p.bytes[x - p.dst]? with
    | some b => exact Or.inl ⟨b, h, rfl, rfl⟩
    | none =>
      rw [List.getElem?_eq_none_iff] at hb
      exact Or.inr ⟨Or.inr (by omega), rfl⟩
  · rw [if_neg h]
    exact Or.inr ⟨Or.inl (by omega), rfl⟩

/-- Writes that agree on what belongs where, in any order. -/
theorem puts_all (inp : Disk) (junk : Byte) (want : Nat → Byte) (total : Nat) (ps : List Put)
    (h : ∀ p ∈ ps, ∀ k b, p.bytes[k]? = some b → p.dst + k < total ∧ putByte inp junk b = want (p.dst + k)) (o : Disk) :
    (∀ x, (o.byte x = want x ∨ ∃ p ∈ ps, p.dst ≤ x ∧ x < p.dst + p.bytes.length) →
      (ps.foldl (fun o p => p.apply inp junk o) o).byte x = want x) ∧
    (∀ x, total ≤ x → (ps.foldl (fun o p => p.apply inp junk o) o).byte x = o.byte x) ∧
    o.size ≤ (ps.foldl (fun o p => p.apply inp junk o) o).size ∧
    (ps.foldl (fun o p => p.apply inp junk o) o).size ≤ max o.size total ∧
    ∀ p ∈ ps, p.bytes ≠ [] → p.dst + p.bytes.length ≤ (ps.foldl (fun o p => p.apply inp junk o) o).size := by
  induction ps generalizing o with
  | nil =>
    refine ⟨fun x hx => ?_, fun x _ => rfl, Nat.le_refl _, Nat.le_max_left _ _, by simp⟩
    rcases hx with hx | ⟨p, hp, _⟩
    · exact hx
    · cases hp
  | cons p ps ih =>
    obtain ⟨g1, g2, g3, g4, g5⟩ := ih (fun q hq => h q (List.mem_cons_of_mem _ hq)) (p.apply inp junk o)
    rw [List.foldl_cons]
    have hp := h p List.mem_cons_self
    have s1 : o.size ≤ (p.apply inp junk o).size := by
      show o.size ≤ if p.bytes = [] then o.size else max o.size (p.dst + p.bytes.length)
      split <;> omega
    have s2 : (p.apply inp junk o).size ≤ max o.size total := by
      show (if p.bytes = [] then o.size else max o.size (p.dst + p.bytes.length)) ≤ _
      split
      · omega
      · rename_i hne
        have hl := List.length_pos_iff.2 hne
        have := (hp (p.bytes.length - 1) _ (List.getElem?_eq_getElem (by omega))).1
        omega
    refine ⟨fun x hx => ?_, fun x hx => ?_, by omega, by omega, fun q hq hne => ?_⟩
    · apply g1
      rcases apply_byte inp junk o p x with ⟨b, e1, e2, e3⟩ | ⟨e1, e2⟩
      · left
        rw [e3, (hp _ b e2).2, show p.dst + (x - p.dst) = x by omega]
      · rw [e2]
        rcases hx with hx | ⟨q, hq, hx⟩
        · exact Or.inl hx
        · rcases List.mem_cons.1 hq with rfl | hq
          · omega
          · exact Or.inr ⟨q, hq, hx⟩
    · rw [g2 x hx]
      rcases apply_byte inp junk o p x with ⟨b, e1, e2, e3⟩ | ⟨e1, e2⟩
      · have := (hp _ b e2).1
        omega
      · exact e2
    · rcases List.mem_cons.1 hq with rfl | hq
      · refine Nat.le_trans ?_ g3
        show _ ≤ if q.bytes = [] then o.size else max o.size (q.dst + q.bytes.length)
        rw [if_neg hne]
        omega
      · exact g5 q hq hne

theorem wanted_lt {fsz q : Nat} (hf : 3600 < fsz) : wanted fsz q < fsz := by
  unfold wanted
  have := Nat.mod_lt (q - 3600) (show 0 < fsz - 3600 by omega)
  split <;> omega

/-- The bytes of the output of `makerep`. -/
theorem makeRep_bytes (version : Option String) (v : Version) (hv : getVersion version = .ok v) (rep N : Nat)
    (sched : List Put → List Put) (hs : ∀ l, (sched l).Perm l) (junk : Byte) (inp out : Disk) (hfit : Fits v rep N inp.size) :
    ∃ out', makeRep version rep N sched junk inp out = .ok out' ∧
      out'.size = max out.size (3600 + (inp.size - 3600) * rep) ∧
      (∀ x, x < 3600 + (inp.size - 3600) * rep → out'.byte x = inp.byte (wanted inp.size x)) ∧
      ∀ x, 3600 + (inp.size - 3600) * rep ≤ x → out'.byte x = out.byte x := by
  obtain ⟨ps, e, h1, h2⟩ := repPuts_ok hfit
  obtain ⟨g1, g2, g3, g4, g5⟩ := puts_all inp junk (fun x => inp.byte (wanted inp.size x)) (3600 + (inp.size - 3600) * rep) (sched ps)
    (by
      intro p hp k b hb
      obtain ⟨q1, q2⟩ := h1 p ((hs ps).mem_iff.1 hp) k b hb
      refine ⟨q1, ?_⟩
      rw [q2]
      show (if _ then _ else _) = _
      rw [if_pos (wanted_lt hfit.hf)]) out
  refine ⟨_, ?_, ?_, fun x hx => ?_, g2⟩
  · unfold makeRep
    rw [hv, Res.ok_bind, e, Res.ok_bind]
  · have hm := Nat.mul_le_mul_left (inp.size - 3600) hfit.hr
    obtain ⟨p, hp, p1, p2⟩ := h2 (3600 + (inp.size - 3600) * rep - 1) (by omega)
    have := g5 p ((hs ps).mem_iff.2 hp) (by rintro hn; rw [hn] at p2; simp at p2; omega)
    have hle : 3600 + (inp.size - 3600) * rep ≤ (List.foldl (fun o p => p.apply inp junk o) out (sched ps)).size := by omega
    exact Nat.le_antisymm g4 (Nat.max_le.2 ⟨g3, hle⟩)
  · obtain ⟨p, hp, h⟩ := h2 x hx
    exact g1 x (Or.inr ⟨p, (hs ps).mem_iff.2 hp, h⟩)

/-! ### Opening the file again -/

/-- What opening a file shows, in terms of its bytes. -/
theorem openRead_eq (d : Disk) (hge : 3600 ≤ d.size) :
    openRead d = (do
      let nt ← getNt d.size ((fromBE16 (d.byte 3220) (d.byte 3221)).signExtend 64).toNat
      .ok ⟨((fromBE16 (d.byte 3220) (d.byte 3221)).signExtend 64).toNat, nt,
        rnd (micro * (fromBE16 (d.byte 3216) (d.byte 3217)).toInt), fromBE16 (d.byte 3224) (d.byte 3225),
        CharEnc.readText ((List.range CharEnc.textSz).map fun i => (d.byte i).toNat)⟩) := by
  have hm : ∀ q : Nat × Nat, q ∈ [DataIO.Op.contig 0 getHOSz].flatMap DataIO.Op.wanted ↔ ∃ j, j < 3600 ∧ q = (j, j) := by
    intro q
    simp only [List.flatMap_cons, List.flatMap_nil, List.append_nil, DataIO.Op.wanted, List.mem_map, List.mem_range]
    constructor
    · rintro ⟨j, hj, rfl⟩; exact ⟨j, hj, by rw [Nat.zero_add]⟩
    · rintro ⟨j, hj, rfl⟩; exact ⟨j, hj, by rw [Nat.zero_add]⟩
  obtain ⟨b, e1, e2, e3, -⟩ := fetch_spec d ([DataIO.Op.contig 0 getHOSz].flatMap DataIO.Op.wanted) (.fill getHOSz 0#8)
    (by intro q h; obtain ⟨j, hj, rfl⟩ := (hm q).mp h; exact hj)
    (by
      intro q h q' h' he
      obtain ⟨j, hj, rfl⟩ := (hm q).mp h
      obtain ⟨j', hj', rfl⟩ := (hm q').mp h'
      exact he)
    (by intro q h; obtain ⟨j, hj, rfl⟩ := (hm q).mp h; simp only; omega)
  have e2 : b.len = 3600 := e2
  have hv : ∀ x, x < 3600 → b.val x = d.byte x := fun x hx => e3 (x, x) ((hm _).mpr ⟨x, hx, rfl⟩)
  have hr : recv d (.fill getHOSz 0#8) [.contig 0 getHOSz] = .ok b := by 
    unfold recv; rw [if_pos (show [DataIO.Op.contig 0 getHOSz].all (legal false) = true from rfl)]; exact e1
  have htt : (List.range CharEnc.textSz).map (fun i => (b.val i).toNat) =
      (List.range CharEnc.textSz).map (fun i => (d.byte i).toNat) := by
    apply List.map_congr_left
    intro i hi
    rw [hv i (by have := List.mem_range.1 hi; unfold CharEnc.textSz at this; omega)]
  unfold openRead
  rw [if_pos (show getHOSz ≤ d.size from hge), hr, Res.ok_bind, field16_ok (by rw [e2]; norm_num), Res.ok_bind,
    hv _ (by norm_num), hv _ (by norm_num)]
  simp only [field16_ok (b := b) (p := 3216) (by rw [e2]; norm_num), field16_ok (b := b) (p := 3224) (by rw [e2]; norm_num), Res.ok_bind]
  rw [htt, hv _ (by norm_num), hv _ (by norm_num), hv _ (by norm_num), hv _ (by norm_num)]

theorem getNt_eq {sz ns : Nat} (h : 3600 ≤ sz) (h1 : sz < 2 ^ 63) (h2 : ns ≤ 32767) :
    getNt sz ns = .ok ((sz - 3600) / (240 + 4 * ns)) := by
  unfold getNt
  rw [getDOSz_eq (by omega), if_neg (by omega)]
  unfold getHOSz
  rw [sub64_eq (by omega) (by omega)]

/-- A file that starts with the same header shows the same, with as many traces as it has room for. -/
theorem open_same {d o : Disk} {i : Info} (hd : 3600 ≤ d.size) (hi : openRead d = .ok i) (hns : i.ns ≤ 32767)
    (ho : 3600 ≤ o.size) (ho' : o.size < 2 ^ 63) (hb : ∀ x, x < 3600 → o.byte x = d.byte x) :
    openRead o = .ok { i with nt := (o.size - 3600) / (240 + 4 * i.ns) } := by
  rw [openRead_eq d hd] at hi
  obtain ⟨nt, hnt, hi⟩ := of_bind hi
  rw [Res.ok.injEq] at hi
  subst hi
  have htt : (List.range CharEnc.textSz).map (fun i => (o.byte i).toNat) =
      (List.range CharEnc.textSz).map (fun i => (d.byte i).toNat) := by
    apply List.map_congr_left
    intro i hi
    rw [hb i (by have := List.mem_range.1 hi; unfold CharEnc.textSz at this; omega)]
  rw [openRead_eq o ho, htt, hb 3220 (by norm_num), hb 3221 (by norm_num), hb 3216 (by norm_num), hb 3217 (by norm_num),
    hb 3224 (by norm_num), hb 3225 (by norm_num), getNt_eq ho ho' hns, Res.ok_bind]

theorem records_rep (out inp : Disk) (ns nt rep : Nat)
    (h : ∀ j k, j < rep → k < nt → record out ns (nt * j + k) = record inp ns k) :
    records out ns (nt * rep) = (List.replicate rep (records inp ns nt)).flatten := by
  induction rep with
  | zero => simp [records]
  | succ rep ih =>
    rw [List.replicate_succ', List.flatten_append, ← ih fun j k hj hk => h j k (by omega) hk]
    simp only [List.flatten_cons, List.flatten_nil, List.append_nil]
    unfold records
    rw [Nat.mul_succ, List.range_add, List.map_append, List.map_map]
    refine congrArg _ (List.map_congr_left fun k hk => ?_)
    exact h rep k (by omega) (List.mem_range.1 hk)

/-! ## The property -/

/-- The words for the versions. -/
def Named (version : Option String) : Version → Prop
  | .block => version = none ∨ version = some "standard"
  | .naive1 => version = some "naive1"
  | .naive2 => version = some "naive2"

theorem Named.get {version : Option String} {v : Version} (h : Named version v) : getVersion version = .ok v := by
  cases v with
  | block => rcases h with rfl | rfl <;> rfl
  | naive1 => cases h; rfl
  | naive2 => cases h; rfl

/-- C93: `makerep` of a SEG-Y file with every version, on every number of processes and in every order of the writes, onto an
output that is not there or not longer than the result: a file of the right size that shows the same header with `rep` times
the traces, and whose records are those of the input `rep` times over.

Missing: larger files, see `C59_pieces_refuted`; small files with blocks on several processes, see `C93_default_refuted`;
longer outputs, see `C93_stale_refuted`; input with bytes behind the last trace, see `C93_trailing_refuted`. -/
theorem C93_copies_partial (version : Option String) (v : Version) (hv : Named version v) (rep N : Nat)
    (sched : List Put → List Put) (hs : ∀ l, (sched l).Perm l) (junk : Byte) (inp out : Disk) (i : Info)
    (hi : openRead inp = .ok i) (hns : i.ns ≤ 32767) (hsz : inp.size = 3600 + i.nt * (240 + 4 * i.ns))
    (hfit : Fits v rep N inp.size) (hout : out.size ≤ 3600 + i.nt * rep * (240 + 4 * i.ns)) :
    ∃ out', makeRep version rep N sched junk inp out = .ok out' ∧ out'.size = 3600 + i.nt * rep * (240 + 4 * i.ns) ∧
      (∀ x, x < 3600 → out'.byte x = inp.byte x) ∧ openRead out' = .ok { i with nt := i.nt * rep } ∧
      records out' i.ns (i.nt * rep) = (List.replicate rep (records inp i.ns i.nt)).flatten := by
  obtain ⟨out', e, e1, e2, -⟩ := makeRep_bytes version v hv.get rep N sched hs junk inp out hfit
  obtain ⟨hN, hr, hf, h63, -⟩ := hfit
  have hmul : (inp.size - 3600) * rep = i.nt * rep * (240 + 4 * i.ns) := by
    rw [hsz, Nat.add_sub_cancel_left, Nat.mul_right_comm]
  rw [hmul] at e1 e2
  have e1 : out'.size = 3600 + i.nt * rep * (240 + 4 * i.ns) := by rw [e1]; omega
  have hhead : ∀ x, x < 3600 → out'.byte x = inp.byte x := by
    intro x hx
    rw [e2 x (by omega), wanted_first (by omega)]
  refine ⟨out', e, e1, hhead, ?_, ?_⟩
  · have := open_same (by omega) hi hns (show 3600 ≤ out'.size by omega) (by omega) hhead
    rw [this, e1, Nat.add_sub_cancel_left, Nat.mul_div_cancel _ (by omega)]
  · apply records_rep
    intro j k hj hk
    unfold record
    apply List.map_congr_left
    intro x hx
    rw [List.mem_range] at hx
    unfold recByte
    have h1 := Nat.mul_le_mul_right (240 + 4 * i.ns) (show k + 1 ≤ i.nt from hk)
    rw [Nat.succ_mul] at h1
    have hq : 3600 + k * (240 + 4 * i.ns) + x < inp.size := by omega
    have ha : 3600 + (i.nt * j + k) * (240 + 4 * i.ns) + x =
        3600 + (inp.size - 3600) * j + (3600 + k * (240 + 4 * i.ns) + x - 3600) := by
      rw [hsz, Nat.add_sub_cancel_left, Nat.add_mul, Nat.mul_right_comm]
      omega
    have hlt := rep_le (fsz := inp.size) hj hq (by omega)
    rw [hmul] at hlt
    rw [ha, e2 _ hlt, wanted_rep (by omega) hq]

example : ∃ out' t, makeRep (some "naive2") 3 4 List.reverse 0#8 (exFile false 2 7#8) ⟨0, fun _ => 0#8⟩ = .ok out' ∧
    openRead out' = .ok ⟨1, 6, exInc false, 5#16, t⟩ ∧
    records out' 1 6 = records (exFile false 2 7#8) 1 2 ++ records (exFile false 2 7#8) 1 2 ++ records (exFile false 2 7#8) 1 2 := by
  obtain ⟨t, o⟩ := exFile_open false (n := 2) 7#8 (by decide)
  obtain ⟨out', h1, -, -, h2, h3⟩ := C93_copies_partial (some "naive2") .naive2 rfl 3 4 List.reverse (fun l => List.reverse_perm l) 0#8
    (exFile false 2 7#8) ⟨0, fun _ => 0#8⟩ _ o (show 1 ≤ 32767 by decide) rfl
    ⟨by decide, by decide, by decide, by decide, Or.inl (by decide)⟩ (Nat.zero_le _)
  have h3 : records out' 1 6 = (List.replicate 3 (records (exFile false 2 7#8) 1 2)).flatten := h3
  exact ⟨out', t, h1, h2, by rw [List.append_assoc, h3]; simp [List.replicate]⟩

/-- A file of 10000 traces with the default version: 2 443 600 bytes, on one process and on seven. -/
example (N : Nat) (hN : N = 1 ∨ N = 7) : Fits .block 5 N (exFile false 10000 7#8).size := by
  rcases hN with rfl | rfl
  · exact ⟨by decide, by decide, by decide, by decide, Or.inr ⟨by decide, Or.inr (Or.inl rfl)⟩⟩
  · exact ⟨by decide, by decide, by decide, by decide, Or.inr ⟨by decide, Or.inr (Or.inr (by decide))⟩⟩

/-- C93 onto an output that is longer than the result by at least a trace: it keeps its length, shows more traces than `rep` times those of the
input, and those are what was in the output before. -/
theorem C93_stale_refuted (version : Option String) (v : Version) (hv : Named version v) (rep N : Nat)
    (sched : List Put → List Put) (hs : ∀ l, (sched l).Perm l) (junk : Byte) (inp out : Disk) (i : Info)
    (hi : openRead inp = .ok i) (hns : i.ns ≤ 32767) (hsz : inp.size = 3600 + i.nt * (240 + 4 * i.ns))
    (hfit : Fits v rep N inp.size) (hout : 3600 + (i.nt * rep + 1) * (240 + 4 * i.ns) ≤ out.size) (hout' : out.size < 2 ^ 63) :
    ∃ out' nt', makeRep version rep N sched junk inp out = .ok out' ∧ out'.size = out.size ∧
      openRead out' = .ok { i with nt := nt' } ∧ i.nt * rep < nt' ∧
      ∀ k, i.nt * rep ≤ k → record out' i.ns k = record out i.ns k := by
  obtain ⟨out', e, e1, e2, e3⟩ := makeRep_bytes version v hv.get rep N sched hs junk inp out hfit
  obtain ⟨hN, hr, hf, h63, -⟩ := hfit
  have hmul : (inp.size - 3600) * rep = i.nt * rep * (240 + 4 * i.ns) := by
    rw [hsz, Nat.add_sub_cancel_left, Nat.mul_right_comm]
  rw [hmul] at e1 e2 e3
  have hout2 := hout
  rw [Nat.succ_mul] at hout2
  have e1 : out'.size = out.size := by rw [e1]; omega
  have hhead : ∀ x, x < 3600 → out'.byte x = inp.byte x := by
    intro x hx
    rw [e2 x (by omega), wanted_first (by omega)]
  refine ⟨out', (out.size - 3600) / (240 + 4 * i.ns), e, e1, ?_, ?_, ?_⟩
  · have := open_same (by omega) hi hns (show 3600 ≤ out'.size by omega) (by omega) hhead
    rw [this, e1]
  · exact (Nat.le_div_iff_mul_le (by omega)).2 (show (i.nt * rep + 1) * (240 + 4 * i.ns) ≤ _ by omega)
  · intro k hk
    unfold record
    apply List.map_congr_left
    intro x _
    unfold recByte
    have := Nat.mul_le_mul_right (240 + 4 * i.ns) hk
    exact e3 _ (by omega)

example : ∃ out' i', makeRep none 1 1 id 0#8 (exFile false 2 7#8) (exFile true 5 9#8) = .ok out' ∧
    openRead out' = .ok i' ∧ 2 < i'.nt ∧ record out' 1 2 = record (exFile true 5 9#8) 1 2 := by
  obtain ⟨t, o⟩ := exFile_open false (n := 2) 7#8 (by decide)
  obtain ⟨out', nt', h1, -, h2, h3, h4⟩ := C93_stale_refuted none .block (.inl rfl) 1 1 id (fun l => .refl l) 0#8
    (exFile false 2 7#8) (exFile true 5 9#8) _ o (show 1 ≤ 32767 by decide) rfl
    ⟨by decide, by decide, by decide, by decide, Or.inr ⟨by decide, by decide⟩⟩
    (show 3600 + (2 * 1 + 1) * (240 + 4 * 1) ≤ plainSz 5 1 by decide) (by decide)
  exact ⟨out', _, h1, h2, h3, h4 2 (Nat.le_refl _)⟩

/-- C93 for a file with bytes behind the last trace (fewer than a trace has, since it opens with `i.nt` traces): every
repetition but the first is read at the wrong place. The record that should be that of the first trace again starts with
those bytes and goes on with the header of the trace, shifted; it is another record if their first byte is another. -/
theorem C93_trailing_refuted (version : Option String) (v : Version) (hv : Named version v) (rep N e : Nat)
    (sched : List Put → List Put) (hs : ∀ l, (sched l).Perm l) (junk : Byte) (inp out : Disk) (i : Info)
    (hi : openRead inp = .ok i) (hns : i.ns ≤ 32767) (hsz : inp.size = 3600 + i.nt * (240 + 4 * i.ns) + e)
    (hnt : 1 ≤ i.nt) (he : 0 < e) (hrep : 2 ≤ rep) (hfit : Fits v rep N inp.size)
    (hout : out.size ≤ 3600 + (inp.size - 3600) * rep) :
    ∃ out' nt', makeRep version rep N sched junk inp out = .ok out' ∧ openRead out' = .ok { i with nt := nt' } ∧ i.nt * 2 ≤ nt' ∧
      (∀ x, x < 240 + 4 * i.ns → recByte out' i.ns i.nt x =
        if x < e then inp.byte (3600 + i.nt * (240 + 4 * i.ns) + x) else recByte inp i.ns 0 (x - e)) ∧
      (inp.byte (3600 + i.nt * (240 + 4 * i.ns)) ≠ inp.byte 3600 → record out' i.ns i.nt ≠ record inp i.ns 0) := by
  obtain ⟨out', e', e1, e2, -⟩ := makeRep_bytes version v hv.get rep N sched hs junk inp out hfit
  obtain ⟨hN, hr, hf, h63, -⟩ := hfit
  have e1 : out'.size = 3600 + (inp.size - 3600) * rep := by rw [e1]; omega
  have hm2 := Nat.mul_le_mul_left (inp.size - 3600) hrep
  have h1 := Nat.mul_le_mul_right (240 + 4 * i.ns) hnt
  rw [Nat.one_mul] at h1
  have hhead : ∀ x, x < 3600 → out'.byte x = inp.byte x := by
    intro x hx
    rw [e2 x (by omega), wanted_first (by omega)]
  have hrec : ∀ x, x < 240 + 4 * i.ns → recByte out' i.ns i.nt x =
      if x < e then inp.byte (3600 + i.nt * (240 + 4 * i.ns) + x) else recByte inp i.ns 0 (x - e) := by
    intro x hx
    unfold recByte
    rw [e2 _ (by omega)]
    by_cases h : x < e
    · rw [if_pos h, wanted_first (by omega)]
    · rw [if_neg h, Nat.zero_mul, Nat.add_zero]
      have := wanted_rep (fsz := inp.size) (q := 3600 + (x - e)) (j := 1) (by omega) (by omega)
      rw [← this, wanted_rep (by omega) (by omega)]
      refine congrArg inp.byte ?_
      rw [← this]
      refine congrArg _ ?_
      omega
  refine ⟨out', (out'.size - 3600) / (240 + 4 * i.ns), e', ?_, ?_, hrec, ?_⟩
  · exact open_same (by omega) hi hns (show 3600 ≤ out'.size by omega) (by omega) hhead
  · refine (Nat.le_div_iff_mul_le (by omega)).2 ?_
    rw [Nat.mul_right_comm]
    omega
  · intro hne hc
    have hc0 := congrArg (fun l => l[0]?) hc
    unfold record at hc0
    rw [List.getElem?_map, List.getElem?_map, List.getElem?_range (by omega), Option.map_some, Option.map_some,
      Option.some.injEq, hrec 0 (by omega), if_pos he, Nat.add_zero] at hc0
    apply hne
    rw [hc0]
    unfold recByte
    rw [Nat.zero_mul]

/-- Two traces of bytes 7 and five bytes 9 behind them. -/
def tailFile : Disk := ⟨plainSz 2 1 + 5, fun x => if x < plainSz 2 1 then (exFile false 2 7#8).byte x else 9#8⟩

example : ∃ out' i', makeRep none 2 1 id 0#8 tailFile ⟨0, fun _ => 0#8⟩ = .ok out' ∧ openRead out' = .ok i' ∧ 4 ≤ i'.nt ∧
    record out' 1 2 ≠ record tailFile 1 0 := by
  obtain ⟨t, o⟩ := exFile_open false (n := 2) 7#8 (by decide)
  have o' : openRead tailFile = .ok ⟨1, 2, exInc false, 5#16, t⟩ := by
    rw [open_same (o := tailFile) (by decide) o (show 1 ≤ 32767 by decide) (by decide) (by decide)
      (fun x hx => if_pos (by unfold plainSz; omega)), Res.ok.injEq, Info.mk.injEq]
    exact ⟨rfl, show (tailFile.size - 3600) / (240 + 4 * 1) = 2 by decide, rfl, rfl, rfl⟩
  obtain ⟨out', nt', h1, h2, h3, -, h4⟩ := C93_trailing_refuted none .block (.inl rfl) 2 1 5 id (fun l => .refl l) 0#8
    tailFile ⟨0, fun _ => 0#8⟩ _ o' (show 1 ≤ 32767 by decide) rfl
    (show 1 ≤ 2 by decide) (by decide) (by decide)
    ⟨by decide, by decide, by decide, by decide, Or.inr ⟨by decide, by decide⟩⟩ (by decide)
  have h4 : tailFile.byte (3600 + 2 * (240 + 4 * 1)) ≠ tailFile.byte 3600 → record out' 1 2 ≠ record tailFile 1 0 := by exact h4
  exact ⟨out', _, h1, h2, h3, h4 (by decide)⟩

theorem size_ge (inp : Disk) (junk : Byte) (ps : List Put) (o : Disk) :
    o.size ≤ (ps.foldl (Put.apply inp junk) o).size ∧
    ∀ p ∈ ps, p.bytes ≠ [] → p.dst + p.bytes.length ≤ (ps.foldl (Put.apply inp junk) o).size := by
  induction ps generalizing o with
  | nil => exact ⟨Nat.le_refl _, by simp⟩
  | cons p ps ih =>
    obtain ⟨g1, g2⟩ := ih (p.apply inp junk o)
    rw [List.foldl_cons]
    have hsz : (p.apply inp junk o).size = if p.bytes = [] then o.size else max o.size (p.dst + p.bytes.length) := rfl
    refine ⟨Nat.le_trans (by rw [hsz]; split <;> omega) g1, fun q hq hne => ?_⟩
    rcases List.mem_cons.1 hq with rfl | hq
    · rw [if_neg hne] at hsz
      omega
    · exact g2 q hq hne

/-- C93 as it is used by default (no option `-v`, or `standard`), on several processes, for a file smaller than a block of
`2^21` bytes that is not small enough for the simple copy: it never gives a file of the right size, whatever the order of
the writes and what was in the output. -/
theorem C93_default_refuted (version : Option String) (hv : version = none ∨ version = some "standard") (rep N : Nat)
    (sched : List Put → List Put) (hs : ∀ l, (sched l).Perm l) (junk : Byte) (inp out : Disk) (hN : 2 ≤ N)
    (h1 : 3600 ≤ inp.size / N) (h2 : inp.size < 2097152) (h3 : 3600 + (inp.size - 3600) * rep < 2 ^ 53) :
    ¬ ∃ out', makeRep version rep N sched junk inp out = .ok out' ∧ out'.size = 3600 + (inp.size - 3600) * rep := by
  rintro ⟨out', e, e1⟩
  have hNf : 3600 * N ≤ inp.size := (Nat.le_div_iff_mul_le (by omega)).1 h1
  unfold makeRep at e
  rw [Named.get (v := .block) hv, Res.ok_bind] at e
  obtain ⟨ps, hps, e⟩ := of_bind e
  rw [Res.ok.injEq] at e
  unfold repPuts at hps
  rw [show headerSz = 3600 from rfl, if_neg (by omega)] at hps
  dsimp only at hps
  obtain ⟨d, hd, hgo, -, hlen⟩ := inside_share inp.size 0 N 21 (by omega) (by omega) hN (by omega) (by omega) (by omega)
  rw [show 2 ^ 21 = 2097152 from rfl] at hd hlen
  rw [show 2 ^ (64 - 21) + 1 = 8796093022209 from rfl] at hlen
  have hst : 1073741824 ≤ stepSz N := by unfold stepSz; omega
  unfold standardCopy at hps
  have hmem := first_put N inp.size rep (stepSz N) (inp.size - 1) ps d (by omega) (by omega) (by omega) hd
    (by rw [show inp.size - 1 + 1 = inp.size by omega]; exact hps)
  have hbig : 2 ^ 53 < d.localSize := by
    have hdiv : 8796093022209 / 582 ≤ 8796093022209 / N := Nat.div_le_div_left (by omega) (by omega)
    have hsz : 8796093022209 / N ≤ Verif.Decomp.sz 8796093022209 N 0 := by
      unfold Verif.Decomp.sz
      omega
    omega
  have hg := (size_ge inp junk (sched ps) out).2 _ ((hs ps).mem_iff.2 hmem) (by
    intro hc
    have := congrArg List.length hc
    simp at this
    omega)
  rw [e, List.length_map, List.length_range', e1] at hg
  dsimp only at hg
  omega

example : 2 ≤ 4 ∧ 3600 ≤ (exFile false 1000 7#8).size / 4 ∧ (exFile false 1000 7#8).size < 2097152 ∧
    3600 + ((exFile false 1000 7#8).size - 3600) * 10 < 2 ^ 53 := by decide

/-- C93 with another word after `-v`: undefined, whatever the files. -/
theorem C93_version_refuted (s : String) (h1 : s ≠ "standard") (h2 : s ≠ "naive1") (h3 : s ≠ "naive2") (rep N : Nat)
    (sched : List Put → List Put) (junk : Byte) (inp out : Disk) :
    makeRep (some s) rep N sched junk inp out = .ub := by
  unfold makeRep getVersion
  dsimp only
  rw [if_neg h1, if_neg h2, if_neg h3]
  rfl

example (inp out : Disk) : makeRep (some "naive") 2 4 id 0#8 inp out = .ub :=
  C93_version_refuted "naive" (by decide) (by decide) (by decide) 2 4 id 0#8 inp out

end Verif.Util
