import Verif.Util.SwapTool
import Verif.Props.CreateTool

/-!
# C83: exchanging the source coordinates
-/

namespace Verif.CSwap
open Verif.Rules Verif.Params Verif.Files Verif.Layout Verif.Endian Verif.FP Verif.Flow Verif.Extremes Verif.Scalar
open Verif.CCopy (dr_rule dr_entries dr_numbers dr_coords narrow32 cstr headerCalls procCalls perCall_eq close_copy
  headerCalls_ok biggest_spec procCalls_spec spans_spec openRead_text)
open Verif.CCreate (dconv iconv lval set_stored entry_unique run_disjoint small_of runBlocks)

/-! ## Rows -/

/-- The place of the coordinate that comes to a place. -/
def other (loc : Nat) : Nat := if loc = 73 then 77 else if loc = 77 then 73 else loc

theorem dr_x : ∃ q ∈ dr.map, ∃ e, q.2 = some e ∧ (e.kind = .float ∧ e.loc = 73) ∧ q.1 = 20 := by
  unfold dr; decide +kernel

theorem dr_y : ∃ q ∈ dr.map, ∃ e, q.2 = some e ∧ (e.kind = .float ∧ e.loc = 77) ∧ q.1 = 21 := by
  unfold dr; decide +kernel

theorem dr_no : ∀ q ∈ dr.map, ∃ e, q.2 = some e ∧ (q.1 ≠ 20 → q.1 ≠ 21 → e.kind = .float → other e.loc = e.loc) := by
  unfold dr; decide +kernel

theorem get_float {p : Param ℚ} (hp : WF p) {i m : Nat} {e : Entry} (he : (m, some e) ∈ p.rule.map) (hk : e.kind = .float)
    (hi : i < p.sz) : getPrm dconv i m p = .ok (fval p i e) := by
  have hlt := num_lt hp.inv he
  rw [hk] at hlt
  unfold getPrm getEntry
  rw [find_of_mem hp.inv.keys he]
  simp only [hk]
  rw [Arr.get_ok (by rw [hp.f]; exact idx_lt hlt hi), Res.ok_bind]
  unfold fval
  rw [Nat.mul_comm]
  rfl

/-- Row `j` with the source coordinates exchanged. -/
def Swaps (p p' : Param ℚ) (j : Nat) : Prop :=
  ∀ m e, (m, some e) ∈ dr.map →
    (e.kind = .float → ∃ m2 e2, (m2, some e2) ∈ dr.map ∧ e2.kind = .float ∧ e2.loc = other e.loc ∧ fval p' j e = fval p j e2) ∧
    (e.kind = .long → lval p' j e = lval p j e)

/-- Row `j` as it was. -/
def Keeps (p p' : Param ℚ) (j : Nat) : Prop :=
  ∀ m e, (m, some e) ∈ dr.map → (e.kind = .float → fval p' j e = fval p j e) ∧ (e.kind = .long → lval p' j e = lval p j e)

theorem swapRow_spec (i : Nat) (p : Param ℚ) (hp : WF p) (hr : p.rule = dr) (hi : i < p.sz) :
    ∃ p', swapRow i p = .ok p' ∧ WF p' ∧ p'.rule = dr ∧ p'.sz = p.sz ∧ Swaps p p' i ∧ ∀ j, j ≠ i → Keeps p p' j := by
  obtain ⟨⟨m1, o1⟩, hx, ex, hx1, ⟨kx, lx⟩, hx2⟩ := dr_x
  obtain ⟨⟨m2, o2⟩, hy, ey, hy1, ⟨ky, ly⟩, hy2⟩ := dr_y
  dsimp only at hx1 hx2 hy1 hy2
  subst hx1 hx2 hy1 hy2
  have hx' : (20, some ex) ∈ p.rule.map := by rw [hr]; exact hx
  have hy' : (21, some ey) ∈ p.rule.map := by rw [hr]; exact hy
  obtain ⟨p1, a1, a2, a3, a4, a5, -, a7⟩ := set_stored dconv p hp i 20 (fval p i ey) hx' (Or.inl kx) hi
  obtain ⟨p2, b1, b2, b3, b4, b5, -, b7⟩ := set_stored dconv p1 a2 i 21 (fval p i ex) (e := ey) (by rw [a3]; exact hy') (Or.inl ky)
    (by omega)
  have hrest : ∀ i' m' e', (m', some e') ∈ dr.map → ¬ (i' = i ∧ (m' = 20 ∨ m' = 21)) →
      (e'.kind = .float → fval p2 i' e' = fval p i' e') ∧ (e'.kind = .long → lval p2 i' e' = lval p i' e') := by
    intro i' m' e' hm hne
    have h1 := a7 i' m' e' (by rw [hr]; exact hm) (by tauto)
    have h2 := b7 i' m' e' (by rw [a3, hr]; exact hm) (by tauto)
    exact ⟨fun h => (h2.1 h).trans (h1.1 h), fun h => (h2.2 h).trans (h1.2 h)⟩
  refine ⟨p2, ?_, b2, by rw [b3, a3, hr], by omega, ?_, ?_⟩
  · unfold swapRow
    rw [get_float hp hx' kx hi, Res.ok_bind, get_float hp hy' ky hi, Res.ok_bind, a1, Res.ok_bind, b1]
  · intro m e he
    by_cases h20 : m = 20
    · subst h20
      rw [entry_unique he hx]
      refine ⟨fun _ => ⟨21, ey, hy, ky, by rw [lx, ly]; rfl, ?_⟩, fun h => by rw [kx] at h; cases h⟩
      rw [(b7 i 20 ex (by rw [a3]; exact hx') (by omega)).1 kx, a5 kx]
      rfl
    by_cases h21 : m = 21
    · subst h21
      rw [entry_unique he hy]
      refine ⟨fun _ => ⟨20, ex, hx, kx, by rw [lx, ly]; rfl, ?_⟩, fun h => by rw [ky] at h; cases h⟩
      rw [b5 ky]
      rfl
    have := hrest i m e he (by omega)
    obtain ⟨e', q1, q2⟩ := dr_no _ he
    cases q1
    exact ⟨fun h => ⟨m, e, he, h, (q2 h20 h21 h).symm, this.1 h⟩, this.2⟩
  · intro j hj m e he
    exact hrest j m e he (by omega)

theorem Keeps.trans {p p' p'' : Param ℚ} {j : Nat} (h : Keeps p p' j) (h' : Keeps p' p'' j) : Keeps p p'' j :=
  fun m e he => ⟨fun hk => ((h' m e he).1 hk).trans ((h m e he).1 hk), fun hk => ((h' m e he).2 hk).trans ((h m e he).2 hk)⟩

theorem swapRows_spec (n : Nat) : ∀ (i : Nat) (p : Param ℚ), WF p → p.rule = dr → i + n ≤ p.sz →
    ∃ p', swapRows p i n = .ok p' ∧ WF p' ∧ p'.rule = dr ∧ p'.sz = p.sz ∧ (∀ j, i ≤ j → j < i + n → Swaps p p' j) ∧
      ∀ j, ¬ (i ≤ j ∧ j < i + n) → Keeps p p' j := by
  induction n with
  | zero =>
    intro i p hp hr _
    exact ⟨p, rfl, hp, hr, rfl, fun j h1 h2 => by omega, fun _ _ _ _ _ => ⟨fun _ => rfl, fun _ => rfl⟩⟩
  | succ n ih =>
    intro i p hp hr hi
    obtain ⟨p1, a1, a2, a3, a4, a5, a6⟩ := swapRow_spec i p hp hr (by omega)
    obtain ⟨p2, b1, b2, b3, b4, b5, b6⟩ := ih (i + 1) p1 a2 a3 (by omega)
    refine ⟨p2, by rw [swapRows, a1, Res.ok_bind, b1], b2, b3, by omega, ?_, ?_⟩
    · intro j h1 h2 m e he
      by_cases hj : j = i
      · subst hj
        have h3 := b6 j (by omega) m e he
        obtain ⟨h4, h5⟩ := a5 m e he
        refine ⟨fun hk => ?_, fun hk => (h3.2 hk).trans (h5 hk)⟩
        obtain ⟨m2, e2, g1, g2, g3, g4⟩ := h4 hk
        exact ⟨m2, e2, g1, g2, g3, (h3.1 hk).trans g4⟩
      · obtain ⟨h4, h5⟩ := b5 j (by omega) (by omega) m e he
        have h3 := a6 j hj
        refine ⟨fun hk => ?_, fun hk => (h5 hk).trans ((h3 m e he).2 hk)⟩
        obtain ⟨m2, e2, g1, g2, g3, g4⟩ := h4 hk
        exact ⟨m2, e2, g1, g2, g3, g4.trans ((h3 m2 e2 g1).1 g2)⟩
    · intro j hj
      exact (a6 j (by omega)).trans (b6 j (by omega))

/-! ## Headers -/

/-- The header of trace `k` in `o` was written from parameters with the values of `d`, the source coordinates exchanged. -/
def Moved (ns : Nat) (d : Disk) (k : Nat) (o : Disk) : Prop :=
  ∃ (p : Param ℚ) (j : Nat), WF p ∧ p.rule = dr ∧
    (∀ m e, (m, some e) ∈ dr.map →
      (e.kind = .float → fval p j e = decode (be16 d ns k 71) (be32 d ns k (other e.loc))) ∧
      (e.kind = .long → lval p j e = (be32 d ns k e.loc).signExtend 64)) ∧
    Header (fsOf dbl) (enOf dbl) p j (dhdr o ns k)

theorem Moved.congr {ns k : Nat} {d o o' : Disk} (h : Moved ns d k o)
    (he : ∀ x, taddr ns k ≤ x ∧ x < taddr ns k + 240 → o'.byte x = o.byte x) : Moved ns d k o' := by
  obtain ⟨p, j, h1, h2, h3, h4⟩ := h
  refine ⟨p, j, h1, h2, h3, Header.congr (by rw [h2]; exact dr_rule.layout) h4 ?_⟩
  intro x hx
  exact he _ ⟨by unfold taddr; omega, by unfold taddr; omega⟩

/-- What the output has of trace `k`: the numbers of the default rule as they were, the values (scalar times integer) of the
source coordinates exchanged and those of the other coordinates as they were, and nothing else in the header. -/
structure Swapped (ns : Nat) (d : Disk) (k : Nat) (o : Disk) : Prop where
  numbers : ∀ loc ∈ [5, 37, 189, 193], be32 o ns k loc = be32 d ns k loc
  coords : Usable (be16 d ns k 71) → Accepted (be16 o ns k 71) ∧
    ∀ q ∈ [(73, 77), (77, 73), (81, 81), (85, 85), (181, 181), (185, 185)],
      unit (be16 o ns k 71) * (be32 o ns k q.1).toInt = unit (be16 d ns k 71) * (be32 d ns k q.2).toInt
  rest : ∀ x, x < 240 → (∀ loc ∈ [5, 37, 189, 193] ++ place, ¬ (loc ≤ x + 1 ∧ x + 1 < loc + 4)) → ¬ (71 ≤ x + 1 ∧ x + 1 < 73) →
    recByte o ns k x = 0#8

theorem float_scal {m : Nat} {e : Entry} (he : (m, some e) ∈ dr.map) (hk : e.kind = .float) : e.loc ∈ place ∧ e.scalLoc = 71 := by
  obtain ⟨e', h1, h2⟩ := dr_entries _ he
  cases h1
  rcases h2 with h | ⟨h, -⟩ | ⟨-, h⟩
  · rw [hk] at h; cases h
  · rw [hk] at h; cases h
  · exact h

theorem Moved.swapped {ns k : Nat} {d o : Disk} (h : Moved ns d k o) : Swapped ns d k o := by
  obtain ⟨p, j, hp, hr, hv, hh⟩ := h
  have hcoord : ∀ loc ∈ place, Usable (be16 d ns k 71) → Accepted (be16 o ns k 71) ∧
      unit (be16 o ns k 71) * (be32 o ns k loc).toInt = unit (be16 d ns k 71) * (be32 d ns k (other loc)).toInt := by
    intro loc hl hu
    obtain ⟨q, hq, e, he, hk, h1, h2⟩ := dr_coords loc hl
    have hm : (q.1, some e) ∈ dr.map := by rw [← he]; exact hq
    have := again_values (fs := fsOf dbl) (en := enOf dbl) (fun v s h => by
      show okOr 1#16 (findScalar v) = s; rw [h]; rfl)
      (fun v s n h => by show okOr 0#32 (encode v s) = n; rw [h]; rfl) hh.items (by rw [hr]; exact hm) hk hu (by
        intro x hx _
        obtain ⟨m', h1, h2⟩ := mem_floatsOf.1 hx
        rw [hr] at h1
        exact ⟨_, (hv _ _ h1).1 h2⟩) ((hv _ _ hm).1 hk)
    rw [Nat.zero_add, Nat.zero_add, h1, h2] at this
    exact ⟨this.1, this.2.1⟩
  refine ⟨?_, fun hu => ⟨(hcoord 73 (by decide) hu).1, fun q hq => ?_⟩, ?_⟩
  · intro loc hl
    obtain ⟨q, hq, e, he, hk, rfl⟩ := dr_numbers loc hl
    have hm : (q.1, some e) ∈ dr.map := by rw [← he]; exact hq
    have g1 := (hv q.1 e hm).2 hk
    have g2 := (hh.items q.1 e (by rw [hr]; exact hm)).2.1 hk
    unfold lval at g1
    rw [g1, Nat.zero_add, narrow32] at g2
    exact g2
  · have hq' : ∀ q ∈ [(73, 77), (77, 73), (81, 81), (85, 85), (181, 181), (185, 185)], q.1 ∈ place ∧ q.2 = other q.1 := by
      decide +kernel
    rw [(hq' q hq).2]
    exact (hcoord q.1 (hq' q hq).1 hu).2
  · intro x hx hl hs
    have h1 := hh.rest x hx (by
      rintro ⟨m, e, he, hcase⟩
      rw [hr] at he
      obtain ⟨e', e1, hk⟩ := dr_entries _ he
      cases e1
      rcases hk with hk | ⟨hk, hm⟩ | ⟨hk, hm, hsc⟩
      · rcases hcase with ⟨hv, -⟩ | ⟨hv, -⟩
        · rcases hv with hv | hv | hv <;> rw [hk] at hv <;> cases hv
        · rw [hk] at hv; cases hv
      · rcases hcase with ⟨-, a, b⟩ | ⟨hv, -⟩
        · rw [hk] at b
          simp only [width] at b
          exact hl _ (List.mem_append.2 (Or.inl hm)) (by omega)
        · rw [hk] at hv; cases hv
      · rcases hcase with ⟨-, a, b⟩ | ⟨-, a, b⟩
        · rw [hk] at b
          simp only [width] at b
          exact hl _ (List.mem_append.2 (Or.inr hm)) (by omega)
        · rw [hsc] at a b
          exact hs (by omega))
    rw [hr, dr_copy, if_neg (by simp)] at h1
    exact h1

/-! ## Calls -/

/-- Reading parameters only does not depend on the number format. -/
theorem read_flag {cv : Conv ℚ (BitVec 64)} {ns sz skip : Nat} {w : Where} {prm p' : Option (Param ℚ)} {d : Disk} (b : Bool)
    (h : readTraceT dbl cv false ns w sz none prm skip d = .ok (none, p')) :
    readTraceT dbl cv b ns w sz none prm skip d = .ok (none, p') := by
  unfold readTraceT at h ⊢
  obtain ⟨⟨t, p⟩, h1, h2⟩ := of_bind h
  rw [h1, Res.ok_bind]
  cases t with
  | none => exact h2
  | some t =>
    exfalso
    obtain ⟨t', h3, h4⟩ := of_bind h2
    simp only [onTrace] at h3
    obtain ⟨t2, -, h5⟩ := of_bind h3
    rw [Res.ok.injEq] at h4 h5
    rw [← h5] at h4
    simp at h4

theorem swapBlock_spec (i : Info) (d : Disk) (hsz : taddr i.ns i.nt < 2 ^ 63) (hdisk : taddr i.ns i.nt ≤ d.size) (c : Nat × Nat)
    (hle : c.1 + c.2 ≤ i.nt) (o : Disk) :
    ∃ o', swapBlock i d c o = .ok o' ∧ (∀ j, j < c.2 → Moved i.ns d (c.1 + j) o') ∧
      ∀ x, (∀ j, j < c.2 → ¬ (taddr i.ns (c.1 + j) ≤ x ∧ x < taddr i.ns (c.1 + j) + 240)) → o'.byte x = o.byte x := by
  obtain ⟨off, n⟩ := c
  dsimp only at hle ⊢
  have hnt := nt_lt hsz
  have hcl : clamp i.nt off n = n := by rw [clamp_eq (by omega) (by omega) (by omega)]; omega
  obtain ⟨hsm, hinc, htr⟩ := small_of hsz hle
  obtain ⟨t', p', r1, r0, -, -, r3⟩ := read_spec dbl iconv (fun _ => rfl) i.ns (.start off) n none
    (some (Params.mk 0 dr n)) 0 d i.nt hsm (fun a b h1 h2 => Nat.le_of_lt (hinc a b h1 h2))
    (fun a ha => Nat.le_trans (taddr_le (hsm.lt a ha)) hdisk)
    (by simp) (by rintro p h; cases h; exact ⟨dr_rule.rd 0 n, Nat.le_refl _⟩) (by simp)
  obtain ⟨p, rfl, hrows⟩ := r3 _ rfl
  rw [r0 rfl] at r1
  have hpr : p.rule = dr := hrows.rule
  have hpz : p.sz = n := hrows.size
  have hdec : ∀ j, j < n → Decoded dbl (dhdr d i.ns (off + j)) j 0 p dr.map := by
    intro j hj
    have := hrows.dec j hj
    rwa [htr j hj, Nat.add_zero] at this
  obtain ⟨p1, s1, s2, s3, s4, s5, -⟩ := swapRows_spec n 0 p hrows.wf hpr (by omega)
  have hvals : ∀ j, j < n → ∀ m e, (m, some e) ∈ dr.map →
      (e.kind = .float → fval p1 j e = decode (be16 d i.ns (off + j) 71) (be32 d i.ns (off + j) (other e.loc))) ∧
      (e.kind = .long → lval p1 j e = (be32 d i.ns (off + j) e.loc).signExtend 64) := by
    intro j hj m e he
    obtain ⟨h1, h2⟩ := s5 j (Nat.zero_le _) (by omega) m e he
    constructor
    · intro hk
      obtain ⟨m2, e2, g1, g2, g3, g4⟩ := h1 hk
      have := (hdec j hj m2 e2 g1).2.2 g2
      rw [(float_scal g1 g2).2, Nat.zero_add, Nat.zero_add, g3] at this
      rw [g4]
      exact this
    · intro hk
      have := (hdec j hj m e he).2.1 hk
      rw [Nat.zero_add] at this
      rw [h2 hk]
      exact this
  have hfloat : ∀ x, x < p1.f.len → ∃ s v, p1.f.val x = decode s v := by
    intro x hx
    rw [s2.f, s3, s4, hpz] at hx
    have hpos : 0 < dr.cnt .float := by
      rcases Nat.eq_zero_or_pos (dr.cnt .float) with h | h
      · rw [h] at hx; omega
      · exact h
    obtain ⟨m, e, hm, hk, hnum⟩ := slot_of dr_rule.inv .float (Nat.mod_lt x hpos)
    have hj : x / dr.cnt .float < n := by rw [Nat.div_lt_iff_lt_mul hpos]; exact hx
    have := (hvals _ hj m e hm).1 hk
    unfold fval at this
    rw [s3, hnum, Nat.div_add_mod'] at this
    exact ⟨_, _, this⟩
  obtain ⟨o', w1, -, w6, w3, -, -, -⟩ := write_spec dbl i.ns (.start off) n none (some p1) 0 o i.nt hsm hinc (by simp)
    (by
      rintro q h; cases h
      refine ⟨⟨s2, by rw [s3]; exact dr_rule.layout, by rw [s3]; exact dr_rule.full, by rw [s3]; exact dr_rule.start,
        fun x hx => ?_, fun x hx s' => ?_⟩, by omega⟩
      · obtain ⟨s, v, he⟩ := hfloat x hx
        rw [he]; exact (convertible s v).1
      · obtain ⟨s, v, he⟩ := hfloat x hx
        rw [he]; exact (convertible s v).2 s') (by simp)
  refine ⟨o', ?_, ?_, ?_⟩
  · unfold swapBlock
    rw [ctor_default, Res.ok_bind]
    dsimp only
    unfold readTrace
    rw [hcl, read_flag _ r1, Res.ok_bind]
    dsimp only
    rw [s1, Res.ok_bind, w1, Res.ok_bind]
  · intro j hj
    refine ⟨p1, j, s2, s3, hvals j hj, ?_⟩
    have := w6 p1 rfl j hj
    rwa [htr j hj] at this
  · intro x hx
    refine w3 x fun j hj => ⟨fun _ => ?_, by simp⟩
    rw [htr j hj]
    exact hx j hj

/-- The calls of all processes cover every trace once, whatever the number of calls without traces. -/
theorem calls_cover {nt P t : Nat} (ht : 0 < t) (hP : 0 < P) (hnt : nt < 2 ^ 63) :
    (((List.range P).map (procCalls nt P t (Decomp.sz nt P 0))).flatten.flatMap fun c => List.range' c.1 c.2) =
      List.range nt ∧
    ∀ c ∈ ((List.range P).map (procCalls nt P t (Decomp.sz nt P 0))).flatten, c.1 + c.2 ≤ nt := by
  constructor
  · have hall := Decomp.flatMap_range nt P P
    rw [Decomp.off_last nt P hP] at hall
    rw [← List.flatMap_def, List.flatMap_assoc, ← hall, List.flatMap_def, List.flatMap_def]
    congr 1
    refine List.map_congr_left fun r hr => ?_
    obtain ⟨h1, -, -⟩ := procCalls_spec ht hP (List.mem_range.1 hr) hnt
    rw [h1, List.flatMap_append, (spans_spec t _ _ ht _ 0 (Nat.le_refl _)).1]
    have : ∀ q, (List.replicate q (Decomp.off nt P r, 0)).flatMap (fun c => List.range' c.1 c.2) = [] := by
      intro q
      rw [List.flatMap_eq_nil_iff]
      intro c hc
      rw [(List.mem_replicate.1 hc).2]
      rfl
    rw [this, List.append_nil, Nat.add_zero, Nat.sub_zero]
  · intro c hc
    obtain ⟨l, hl, hcl⟩ := List.mem_flatten.1 hc
    obtain ⟨r, hr, rfl⟩ := List.mem_map.1 hl
    exact (procCalls_spec ht hP (List.mem_range.1 hr) hnt).2.2 c hcl

theorem run_modprm (sched : List (Nat × Nat) → List (Nat × Nat)) (P : Nat) (hP : 0 < P)
    (d : Disk) (i : Info) (hopen : openRead d = .ok i) (hd : d.size < 2 ^ 63) (h0 : 0 < i.ns)
    (h1 : i.ns ≤ 32767) (hinc : (2 : ℚ) ^ (-1022 : ℤ) ≤ |i.inc|) (out : Disk) {t : Nat} (ht : t = 2 ^ 31 / max (4 * i.ns) 240) :
    modprm sched P d out =
      (runBlocks (swapBlock i d) (sched ((List.range P).map (procCalls i.nt P t (Decomp.sz i.nt P 0))).flatten) out >>= fun o =>
      close (((List.range P).map (procCalls i.nt P t (Decomp.sz i.nt P 0))).map fun l =>
        l.foldl (fun w c => w.writeTrace c.1 c.2) (headerCalls i)) o) := by
  obtain ⟨o1, -⟩ := openRead_of hopen hd h0 h1
  have hnt := nt_lt (Nat.lt_of_le_of_lt o1 hd)
  have hdec : Flow.collect (Decomp.blockDecomposition i.nt P) (List.range P) =
      .ok ((List.range P).map fun r => (⟨Decomp.off i.nt P r, Decomp.sz i.nt P r⟩ : Decomp.Dec)) :=
    collect_ok fun r hr => Decomp.blockDecomposition_eq hP (List.mem_range.1 hr) (by omega)
  have hbig : (((List.range P).map fun r => (⟨Decomp.off i.nt P r, Decomp.sz i.nt P r⟩ : Decomp.Dec)).map
      (·.localSize)).foldl max 0 = Decomp.sz i.nt P 0 := by
    rw [List.map_map]
    exact (biggest_spec i.nt P hP).1
  have ht0 : 0 < t := by rw [ht]; exact Nat.div_pos (by omega) (by omega)
  have hpc : CCopy.perCall (2 * 1024 * 1024 * 1024) i.ns = t := by rw [perCall_eq h1, ht, show 2 * 1024 * 1024 * 1024 = 2 ^ 31 from rfl]
  unfold modprm
  rw [hopen, Res.ok_bind]
  simp only [(headerCalls_ok h1 hinc).1, Bool.false_eq_true, if_false]
  rw [hdec, Res.ok_bind]
  simp only [hpc]
  rw [if_neg (by omega), hbig, List.map_map]
  rfl

/-- **C83**. For any file that opens with samples and a positive interval, in either number format, any number of processes and
any order of their calls: `modprm` ends; the output opens with the number of
samples and traces and the interval of the input; in the header of every trace the source coordinates are exchanged, the numbers
and the other coordinates of the default rule are kept, and the rest is zero. Missing: the samples are not those of the
input, but what the output had before (`C83_samples_refuted`), the rest of the header (`C83_header_refuted`), and files with
the interval 0 (`C83_interval_refuted`). -/
theorem C83_swap_partial (sched : List (Nat × Nat) → List (Nat × Nat)) (hs : ∀ l, (sched l).Perm l) (P : Nat) (hP : 0 < P)
    (d : Disk) (i : Info) (hopen : openRead d = .ok i) (hd : d.size < 2 ^ 63) (h0 : 0 < i.ns) (h1 : i.ns ≤ 32767)
    (hinc : 0 < i.inc) (out : Disk) :
    ∃ out', modprm sched P d out = .ok out' ∧
      openRead out' = .ok ⟨i.ns, i.nt, i.inc, 5#16, CharEnc.readText (shown (cstr i.text))⟩ ∧
      out'.size = 3600 + i.nt * (240 + 4 * i.ns) ∧ (∀ k, k < i.nt → Swapped i.ns d k out') ∧
      (∀ k, k < i.nt → ∀ x, 240 ≤ x → x < 240 + 4 * i.ns → recByte out' i.ns k x = recByte out i.ns k x) := by
  obtain ⟨o1, iv, hiv⟩ := openRead_of hopen hd h0 h1
  obtain ⟨i1, i2, i3, i4⟩ := inc_again (iv := iv) (by rw [← hiv]; exact hinc)
  rw [← hiv] at i1 i2
  have hsz := Nat.lt_of_le_of_lt o1 hd
  have hnt := nt_lt hsz
  obtain ⟨t, ht⟩ : ∃ t, t = 2 ^ 31 / max (4 * i.ns) 240 := ⟨_, rfl⟩
  have ht0 : 0 < t := by rw [ht]; exact Nat.div_pos (by omega) (by omega)
  obtain ⟨a1, a2⟩ := calls_cover ht0 hP hnt
  have hp := hs ((List.range P).map (procCalls i.nt P t (Decomp.sz i.nt P 0))).flatten
  have hrun := run_modprm sched P hP d i hopen hd h0 h1 i1 out ht
  generalize hcs : ((List.range P).map (procCalls i.nt P t (Decomp.sz i.nt P 0))).flatten = cs at *
  obtain ⟨o2, b1, b2, b3⟩ := run_disjoint (swapBlock i d)
    (fun c x => ∃ j, j < c.2 ∧ taddr i.ns (c.1 + j) ≤ x ∧ x < taddr i.ns (c.1 + j) + 240)
    (fun c o => ∀ j, j < c.2 → Moved i.ns d (c.1 + j) o) (sched cs)
    (fun c hc o => by
      obtain ⟨o', g1, g2, g3⟩ := swapBlock_spec i d hsz o1 c (a2 c (hp.mem_iff.1 hc)) o
      exact ⟨o', g1, g2, fun x hx => g3 x fun j hj hc => hx ⟨j, hj, hc⟩⟩)
    (fun c _ o o' hq he j hj => (hq j hj).congr fun x hx => he x ⟨j, hj, hx⟩)
    (by
      rw [hp.pairwise_iff (by rintro a b h x hb ha; exact h x ha hb)]
      have hn : (cs.flatMap fun c => List.range' c.1 c.2).Nodup := by rw [a1]; exact List.nodup_range
      refine (List.nodup_flatMap.1 hn).2.imp ?_
      rintro a b hab x ⟨j, hj, hx⟩ ⟨j', hj', hx'⟩
      by_cases he : a.1 + j = b.1 + j'
      · exact hab (a := a.1 + j) (by rw [List.mem_range'_1]; omega) (by rw [List.mem_range'_1]; omega)
      · exact apart (ns := i.ns) (k := a.1 + j) (k' := b.1 + j') (a := 0) (b := 240) (c := 0)
          (e := 240) ⟨hx.1, hx.2⟩ (by omega) (by omega) (fun h => absurd h he) ⟨hx'.1, hx'.2⟩) out
  obtain ⟨o3, c1, c2, c3, c4⟩ := close_copy ht0 hP h0 h1 hsz i1 (by omega) (by omega) i2 (openRead_text hopen).1 o2
  refine ⟨o3, by rw [hrun, b1, Res.ok_bind, c1], ?_, c2, fun k hk => ?_, fun k hk x hx0 hx1 => ?_⟩
  · rw [BitVec.ofInt_toInt, ← hiv] at c4
    exact c4
  · have hm := List.mem_range.2 hk
    rw [← a1] at hm
    obtain ⟨c, hc, hk'⟩ := List.mem_flatMap.1 hm
    rw [List.mem_range'_1] at hk'
    have := b2 c (hp.mem_iff.2 hc) (k - c.1) (by omega)
    rw [show c.1 + (k - c.1) = k by omega] at this
    refine (this.congr fun x hx => c3 x ?_).swapped
    have : 3600 ≤ taddr i.ns k := by unfold taddr; omega
    omega
  · show o3.byte _ = out.byte _
    rw [c3 _ (by omega)]
    refine b3 _ ?_
    rintro c - ⟨j, hj, hx⟩
    exact apart (ns := i.ns) (k := c.1 + j) (k' := k) (a := 0) (b := 240) (c := 240) (e := 240 + 4 * i.ns)
      ⟨hx.1, hx.2⟩ (by omega) (by omega) (fun _ => Or.inl (Nat.le_refl _)) (by unfold taddr; omega)

/-- **C83**: all processes make the same number of calls, as calls that all processes take part in must. -/
theorem C83_rounds (nt P t : Nat) (ht : 0 < t) (hP : 0 < P) (hnt : nt < 2 ^ 63) (ds : List Decomp.Dec)
    (hds : Flow.collect (Decomp.blockDecomposition nt P) (List.range P) = .ok ds) :
    ∃ n, ∀ c ∈ ds, (CCopy.callsOf t c.globalOffset c.localSize ((ds.map (·.localSize)).foldl max 0)).length = n := by
  rw [CCreate.decs_eq hP (by omega), Res.ok.injEq] at hds
  subst hds
  have hbig : ((CCreate.decs nt P).map (·.localSize)).foldl max 0 = Decomp.sz nt P 0 := by
    unfold CCreate.decs
    rw [List.map_map]
    exact (biggest_spec nt P hP).1
  rw [hbig]
  have : ∃ n, ∀ r, r < P → (CCopy.callsOf t (Decomp.off nt P r) (Decomp.sz nt P r) (Decomp.sz nt P 0)).length = n :=
    ⟨_, fun r hr => (procCalls_spec ht hP hr hnt).2.1⟩
  obtain ⟨n, hn⟩ := this
  refine ⟨n, fun c hc => ?_⟩
  obtain ⟨r, hr, rfl⟩ := List.mem_map.1 hc
  exact hn r (List.mem_range.1 hr)

/-- **C83**: twice is nothing, for the values of the default rule. -/
theorem C83_twice_partial (sched : List (Nat × Nat) → List (Nat × Nat)) (hs : ∀ l, (sched l).Perm l) (P : Nat) (hP : 0 < P)
    (d : Disk) (i : Info) (hopen : openRead d = .ok i) (hd : d.size < 2 ^ 63) (h0 : 0 < i.ns) (h1 : i.ns ≤ 32767)
    (hinc : 0 < i.inc) (out out2 : Disk) :
    ∃ o o2, modprm sched P d out = .ok o ∧ modprm sched P o out2 = .ok o2 ∧ ∀ k, k < i.nt →
      (∀ loc ∈ [5, 37, 189, 193], be32 o2 i.ns k loc = be32 d i.ns k loc) ∧
      (Usable (be16 d i.ns k 71) → ∀ loc ∈ place,
        unit (be16 o2 i.ns k 71) * (be32 o2 i.ns k loc).toInt = unit (be16 d i.ns k 71) * (be32 d i.ns k loc).toInt) := by
  obtain ⟨o, e1, e2, e3, e4, -⟩ := C83_swap_partial sched hs P hP d i hopen hd h0 h1 hinc out
  obtain ⟨hsz, -⟩ := openRead_of hopen hd h0 h1
  obtain ⟨o2, g1, -, -, g4, -⟩ := C83_swap_partial sched hs P hP o _ e2 (by
    rw [e3]
    exact Nat.lt_of_le_of_lt hsz hd) h0 h1 hinc out2
  refine ⟨o, o2, e1, g1, fun k hk => ⟨fun loc hl => ?_, fun hu loc hl => ?_⟩⟩
  · rw [(g4 k hk).numbers loc hl, (e4 k hk).numbers loc hl]
  · obtain ⟨a1, a2⟩ := (e4 k hk).coords hu
    obtain ⟨-, b2⟩ := (g4 k hk).coords (Or.inl a1)
    have hq : ∀ loc ∈ place, ∃ q ∈ [(73, 77), (77, 73), (81, 81), (85, 85), (181, 181), (185, 185)], q.1 = loc ∧
        (q.2, q.1) ∈ [(73, 77), (77, 73), (81, 81), (85, 85), (181, 181), (185, 185)] := by decide +kernel
    obtain ⟨q, q1, rfl, q2⟩ := hq loc hl
    exact (b2 q q1).trans (a2 (q.2, q.1) q2)

/-- **C83** refuted for the samples: whatever the input has, the samples of the output are those that were there before. -/
theorem C83_samples_refuted (sched : List (Nat × Nat) → List (Nat × Nat)) (hs : ∀ l, (sched l).Perm l) (P : Nat) (hP : 0 < P)
    (d : Disk) (i : Info) (hopen : openRead d = .ok i) (hd : d.size < 2 ^ 63) (h0 : 0 < i.ns) (h1 : i.ns ≤ 32767)
    (hinc : 0 < i.inc) (out : Disk) (k s : Nat) (hk : k < i.nt) (hs' : s < i.ns) (hne : dsamp out i.ns k s ≠ dsamp d i.ns k s) :
    ∃ out', modprm sched P d out = .ok out' ∧ dsamp out' i.ns k s ≠ dsamp d i.ns k s := by
  obtain ⟨o, e1, -, -, -, e5⟩ := C83_swap_partial sched hs P hP d i hopen hd h0 h1 hinc out
  refine ⟨o, e1, ?_⟩
  rw [dsamp_congr hs' (d' := o) (d := out) fun x hx => ?_]
  · exact hne
  · have := e5 k hk (x - taddr i.ns k) (by omega) (by omega)
    unfold recByte at this
    rwa [show taddr i.ns k + (x - taddr i.ns k) = x by omega] at this

/-- **C83** refuted for the rest of the header: a byte outside the default rule is lost. -/
theorem C83_header_refuted (sched : List (Nat × Nat) → List (Nat × Nat)) (hs : ∀ l, (sched l).Perm l) (P : Nat) (hP : 0 < P)
    (d : Disk) (i : Info) (hopen : openRead d = .ok i) (hd : d.size < 2 ^ 63) (h0 : 0 < i.ns) (h1 : i.ns ≤ 32767)
    (hinc : 0 < i.inc) (out : Disk) (k : Nat) (hk : k < i.nt) (hne : recByte d i.ns k 8 ≠ 0#8) :
    ∃ out', modprm sched P d out = .ok out' ∧ recByte out' i.ns k 8 ≠ recByte d i.ns k 8 := by
  obtain ⟨o, e1, -, -, e4, -⟩ := C83_swap_partial sched hs P hP d i hopen hd h0 h1 hinc out
  exact ⟨o, e1, by rw [(e4 k hk).rest 8 (by omega) (by decide) (by decide)]; exact fun h => hne h.symm⟩

/-- **C83** refuted for the interval 0. -/
theorem C83_interval_refuted (sched : List (Nat × Nat) → List (Nat × Nat)) (P : Nat) (d : Disk) (i : Info)
    (hopen : openRead d = .ok i) (hinc : i.inc = 0) (out : Disk) : modprm sched P d out = .abort := by
  have : (headerCalls i).err = true := by
    unfold headerCalls W.writeInc
    rw [hinc, if_pos (by rw [abs_zero]; exact zpow_pos (by norm_num) _)]
  unfold modprm
  rw [hopen, Res.ok_bind]
  simp only [this, if_true]

/-! ### Cases -/

/-- Two bytes of source y: the file of the other examples, in which all bytes of a record are 6, with the source at
`(0x06060606, 0x01060606)`. -/
def exSwap (n : Nat) : Disk :=
  ⟨(CCopy.exCopy n 6#8 0x20).size, fun x => if x = 3600 + 70 then 0#8 else if x = 3600 + 71 then 1#8
    else if x = 3600 + 76 then 1#8 else (CCopy.exCopy n 6#8 0x20).byte x⟩

theorem exSwap_open {n : Nat} (hn : plainSz n 2 < 2 ^ 63) :
    openRead (exSwap n) = .ok ⟨2, n, exInc false, 5#16, CharEnc.readText (List.replicate 3200 0x20)⟩ := by
  have hb : ∀ x, x < 3600 → (exSwap n).byte x = (CCopy.exCopy n 6#8 0x20).byte x := by
    intro x hx
    show (if x = 3600 + 70 then _ else _) = _
    rw [if_neg (by omega), if_neg (by omega), if_neg (by omega)]
  obtain ⟨ty, h1, h2⟩ := openRead_spec (exSwap n) 2 n 2000 (List.replicate 3200 0x20) (by omega) rfl hn
    (by rw [hb _ (by omega), hb _ (by omega)]; show fromBE16 0#8 2#8 = _; decide)
    (by rw [hb _ (by omega), hb _ (by omega)]; show fromBE16 0x07#8 0xd0#8 = _; decide)
    List.length_replicate (fun x hx => by rw [List.eq_of_mem_replicate hx]; omega)
    (fun i hi => by
      rw [List.getElem?_replicate_of_lt hi, hb _ (by omega)]
      show (if i = 3221 then 2#8 else if i = 3216 then 0x07#8
        else if i = 3217 then 0xd0#8 else if i = 3225 then 5#8 else if i < 3200 then BitVec.ofNat 8 0x20
        else if i < 3600 then 0#8 else 6#8) = _
      rw [if_neg (by omega), if_neg (by omega), if_neg (by omega), if_neg (by omega), if_pos (by omega)]
      rfl)
  have : ty = 5#16 := by rw [h2, hb _ (by omega), hb _ (by omega)]; show fromBE16 0#8 5#8 = _; decide
  rw [h1, this]; rfl

/-- The hypotheses of `C83_swap_partial`, `C83_samples_refuted` and `C83_header_refuted`: three traces on five processes. -/
example : ∃ o, modprm List.reverse 5 (exSwap 3) ⟨0, fun _ => 9#8⟩ = .ok o ∧
    unit (be16 o 2 0 71) * (be32 o 2 0 73).toInt = 0x01060606 ∧ unit (be16 o 2 0 71) * (be32 o 2 0 77).toInt = 0x06060606 ∧
    be32 o 2 0 37 = 0x06060606#32 ∧ recByte o 2 2 247 = 9#8 ∧ dsamp o 2 2 1 ≠ dsamp (exSwap 3) 2 2 1 ∧
    recByte o 2 2 8 ≠ recByte (exSwap 3) 2 2 8 := by
  have ho := exSwap_open (n := 3) (by decide)
  obtain ⟨o, e1, -, -, e4, e5⟩ := C83_swap_partial List.reverse (fun l => List.reverse_perm l) 5 (by omega) _ _ ho (by decide)
    (by simp) (by simp) exInc_pos ⟨0, fun _ => 9#8⟩
  obtain ⟨o', e1', e6⟩ := C83_samples_refuted List.reverse (fun l => List.reverse_perm l) 5 (by omega) _ _ ho (by decide)
    (by simp) (by simp) exInc_pos ⟨0, fun _ => 9#8⟩ 2 1 (by simp) (by simp) (by decide)
  obtain ⟨o'', e1'', e7⟩ := C83_header_refuted List.reverse (fun l => List.reverse_perm l) 5 (by omega) _ _ ho (by decide)
    (by simp) (by simp) exInc_pos ⟨0, fun _ => 9#8⟩ 2 (by simp) (by decide)
  rw [e1, Res.ok.injEq] at e1' e1''
  subst e1' e1''
  have hu : be16 (exSwap 3) 2 0 71 = 1#16 := by decide
  obtain ⟨-, c⟩ := (e4 0 (by simp)).coords (by rw [hu]; exact Or.inl (Or.inl rfl))
  refine ⟨o, e1, ?_, ?_, ?_, ?_, e6, e7⟩
  · refine (c (73, 77) (by simp)).trans ?_
    rw [hu, unit_one, show be32 (exSwap 3) 2 0 77 = 0x01060606#32 by decide,
      show (0x01060606#32).toInt = 0x01060606 by decide]
    norm_num
  · refine (c (77, 73) (by simp)).trans ?_
    rw [hu, unit_one, show be32 (exSwap 3) 2 0 73 = 0x06060606#32 by decide,
      show (0x06060606#32).toInt = 0x06060606 by decide]
    norm_num
  · rw [(e4 0 (by simp)).numbers 37 (by simp)]; decide
  · rw [e5 2 (by simp) 247 (by omega) (by simp)]; decide

/-- The hypotheses of `C83_rounds` and `C83_twice_partial`. -/
example : (∃ n, ∀ c ∈ ([⟨0, 3⟩, ⟨3, 2⟩] : List Decomp.Dec), (CCopy.callsOf 2 c.globalOffset c.localSize 3).length = n) ∧
    ∃ o o2, modprm id 2 (exSwap 3) ⟨0, fun _ => 9#8⟩ = .ok o ∧ modprm id 2 o ⟨0, fun _ => 9#8⟩ = .ok o2 := by
  obtain ⟨o, o2, e1, e2, -⟩ := C83_twice_partial id (fun _ => List.Perm.refl _) 2 (by omega) _ _ (exSwap_open (n := 3) (by decide))
    (by decide) (by simp) (by simp) exInc_pos ⟨0, fun _ => 9#8⟩ ⟨0, fun _ => 9#8⟩
  exact ⟨C83_rounds 5 2 2 (by omega) (by omega) (by omega) _ (by decide), o, o2, e1, e2⟩

/-- The hypotheses of `C83_interval_refuted`. -/
example (out : Disk) : modprm id 3 (exFile true 9 7#8) out = .abort := by
  obtain ⟨t, ho⟩ := exFile_open true (n := 9) 7#8 (by decide)
  exact C83_interval_refuted id 3 _ _ ho exInc_zero out

end Verif.CSwap
