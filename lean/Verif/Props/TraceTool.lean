import Verif.Util.TraceTool
import Verif.Props.SwapTool
import Verif.Props.MinMaxMain
import Verif.Props.Assess

/-!
# C113: one trace shown by `traceanalysis`

The claim: `traceanalysis` with the name of a SEG-Y file and the number of a trace prints the coordinates and line numbers in the header
of that trace, and tells if there is no such file or trace.
-/

namespace Verif.TraceTool
open Verif.Rules Verif.Params Verif.Files Verif.Layout Verif.Endian Verif.FP Verif.Flow Verif.Extremes Verif.Scalar Verif.Options
open Verif.CCopy (dr_rule)
open Verif.CCreate (dconv iconv lval small_of)
open Verif.CSwap (get_float read_flag)
open Verif.ConcatTool (World)
open Verif.Life (Name)
open Verif.Assess (pair)

/-! ## The options -/

/-- An option of `traceanalysis`. -/
inductive Arg where
  | i (s : Name)
  | t (n : Nat)

def Arg.given : Arg → Given
  | .i s => .apart 'i' s
  | .t n => .apart 't' (decimal n)

def Arg.i? : Arg → Option Name | .i s => some s | _ => none
def Arg.t? : Arg → Option Nat | .t n => some n | _ => none

/-- The arguments as they are given. -/
def words (l : List Arg) : List Name := (l.map Arg.given).flatMap Given.words

theorem fits (l : List Arg) : ∀ g ∈ l.map Arg.given, g.Fits spec := by
  intro g hg
  obtain ⟨a, -, rfl⟩ := List.mem_map.1 hg
  cases a <;> rfl

theorem fold_options (l : List Arg) (hl : ∀ n, Arg.t n ∈ l → n < 2 ^ 64) (y : Opts) :
    ((l.map Arg.given).filterMap Given.means).foldlM option y =
      .ok ⟨(l.filterMap Arg.i?).getLast?.getD y.name, (l.filterMap Arg.t?).getLast?.getD y.tn⟩ := by
  induction l generalizing y with
  | nil => rfl
  | cons a l ih =>
    have ih := ih fun n hn => hl n (by simp [hn])
    cases a with
    | i s =>
      show ((l.map Arg.given).filterMap Given.means).foldlM option { y with name := s } = _
      rw [ih]
      simp [Arg.i?, Arg.t?, List.getLast?_cons]
    | t n =>
      show ((stoul (decimal n) >>= fun t => (Res.ok { y with tn := t } : Res Opts)) >>=
        ((l.map Arg.given).filterMap Given.means).foldlM option) = _
      rw [SortMain.stoul_decimal (hl n (by simp)), Res.ok_bind, Res.ok_bind, ih]
      simp [Arg.i?, Arg.t?, List.getLast?_cons]

/-- **C113** (the options). In any order; of each the last counts. Without a number it is trace zero. -/
theorem C113_options (l : List Arg) (hl : ∀ n, Arg.t n ∈ l → n < 2 ^ 64) :
    parse (words l) = .ok ⟨(l.filterMap Arg.i?).getLast?.getD [], (l.filterMap Arg.t?).getLast?.getD 0⟩ := by
  unfold parse words
  rw [C101_options spec (by decide) _ (fits l), fold_options l hl]

/-! ## One row -/

theorem get_long {p : Param ℚ} (hp : WF p) {i m : Nat} {e : Entry} (he : (m, some e) ∈ p.rule.map) (hk : e.kind = .long)
    (hi : i < p.sz) : getPrm iconv i m p = .ok (lval p i e) := by
  have hlt := num_lt hp.inv he
  rw [hk] at hlt
  unfold getPrm getEntry
  rw [find_of_mem hp.inv.keys he]
  simp only [hk]
  rw [Arr.get_ok (by rw [hp.i]; exact idx_lt hlt hi), Res.ok_bind]
  unfold lval
  rw [Nat.mul_comm]
  rfl

theorem dr_shown : (∀ r ∈ [(20, 73), (21, 77), (22, 81), (23, 85), (24, 181), (25, 185)], ∃ q ∈ dr.map, ∃ e, q.2 = some e ∧
      (e.kind = .float ∧ e.loc = r.2 ∧ e.scalLoc = 71) ∧ q.1 = r.1) ∧
    ∀ r ∈ [(26, 189), (27, 193)], ∃ q ∈ dr.map, ∃ e, q.2 = some e ∧ (e.kind = .long ∧ e.loc = r.2) ∧ q.1 = r.1 := by
  unfold dr; decide +kernel

theorem shown_row {p : Param ℚ} (hp : WF p) (hr : p.rule = dr) (hz : p.sz = 1) (F : Nat → ℚ) (L : Nat → BitVec 64)
    (hF : ∀ m e, (m, some e) ∈ dr.map → e.kind = .float → e.scalLoc = 71 → fval p 0 e = F e.loc)
    (hL : ∀ m e, (m, some e) ∈ dr.map → e.kind = .long → lval p 0 e = L e.loc) :
    shown p = .ok (place.map F, [(L 189).toNat, (L 193).toNat]) := by
  have h1 : ∀ m loc, (m, loc) ∈ [(20, 73), (21, 77), (22, 81), (23, 85), (24, 181), (25, 185)] → getPrm dconv 0 m p = .ok (F loc) := by
    intro m loc h
    obtain ⟨⟨a, b⟩, hq, e, he, ⟨hk, hl, hs⟩, hm⟩ := dr_shown.1 _ h
    dsimp only at he hm hl
    subst he hm
    rw [get_float hp (by rw [hr]; exact hq) hk (by omega), hF _ e hq hk hs, hl]
  have h2 : ∀ m loc, (m, loc) ∈ [(26, 189), (27, 193)] → getPrm iconv 0 m p = .ok (L loc) := by
    intro m loc h
    obtain ⟨⟨a, b⟩, hq, e, he, ⟨hk, hl⟩, hm⟩ := dr_shown.2 _ h
    dsimp only at he hm hl
    subst he hm
    rw [get_long hp (by rw [hr]; exact hq) hk (by omega), hL _ e hq hk, hl]
  unfold shown
  simp only [collect]
  rw [h1 20 73 (by decide), h1 21 77 (by decide), h1 22 81 (by decide), h1 23 85 (by decide), h1 24 181 (by decide),
    h1 25 185 (by decide), h2 26 189 (by decide), h2 27 193 (by decide)]
  rfl

theorem look_eq {d : Disk} {i : Info} (h : openRead d = .ok i) {tn : Nat} {p : Param ℚ}
    (hr : readTrace dbl iconv false i.ns i.nt tn 1 none (some (mk 0 dr 1)) 0 d = .ok (none, some p)) : look d tn = shown p := by
  unfold look
  rw [h, Res.ok_bind, ctor_default, Res.ok_bind]
  unfold readTrace at hr ⊢
  rw [read_flag _ hr]
  rfl

theorem look_trace {d : Disk} {i : Info} (h : openRead d = .ok i) (hsz : taddr i.ns i.nt < 2 ^ 63) (hdisk : taddr i.ns i.nt ≤ d.size)
    {tn : Nat} (ht : tn < i.nt) : look d tn = .ok (place.map fun loc => decode (be16 d i.ns tn 71) (be32 d i.ns tn loc),
      [((be32 d i.ns tn 189).signExtend 64).toNat, ((be32 d i.ns tn 193).signExtend 64).toNat]) := by
  have hnt := nt_lt hsz
  have hcl : clamp i.nt tn 1 = 1 := by rw [clamp_eq (by omega) (by omega) (by omega)]; omega
  obtain ⟨hsm, hinc, htr⟩ := small_of (off := tn) (n := 1) hsz (by omega)
  obtain ⟨t', p', r1, r0, -, -, r3⟩ := read_spec dbl iconv (fun _ => rfl) i.ns (.start tn) 1 none
    (some (Params.mk 0 dr 1)) 0 d i.nt hsm (fun a b h1 h2 => Nat.le_of_lt (hinc a b h1 h2))
    (fun a ha => Nat.le_trans (taddr_le (hsm.lt a ha)) hdisk)
    (by simp) (by rintro p h; cases h; exact ⟨dr_rule.rd 0 1, Nat.le_refl _⟩) (by simp)
  obtain ⟨p, rfl, hrows⟩ := r3 _ rfl
  rw [r0 rfl] at r1
  have hdec : Decoded dbl (dhdr d i.ns tn) 0 0 p dr.map := by
    have := hrows.dec 0 (by omega)
    rwa [htr 0 (by omega)] at this
  rw [look_eq h (p := p) (by unfold readTrace; rw [hcl]; exact r1)]
  refine shown_row hrows.wf hrows.rule hrows.size (fun loc => decode (be16 d i.ns tn 71) (be32 d i.ns tn loc))
    (fun loc => (be32 d i.ns tn loc).signExtend 64) ?_ ?_
  · intro m e he hk hs
    have := (hdec m e he).2.2 hk
    rw [hs, Nat.zero_add, Nat.zero_add] at this
    exact this
  · intro m e he hk
    have := (hdec m e he).2.1 hk
    rw [Nat.zero_add] at this
    exact this

theorem main_eq {argv : List Name} {name : Name} {tn : Nat} (ha : parse argv = .ok ⟨name, tn⟩) (w : World) {d : Disk} (hd : w name = some d) :
    main argv w = (do let r ← look d tn; .ok (0, r)) := by
  unfold main MinMaxMain.content
  rw [ha, Res.ok_bind]
  dsimp only
  rw [hd]
  rfl

/-- The room of the traces that a file is said to have. -/
theorem room {d : Disk} (h1 : 3600 ≤ d.size) (h2 : d.size < 2 ^ 63) (h3 : pair d 3220 < 32768) :
    ∃ i, openRead d = .ok i ∧ i.ns = pair d 3220 ∧ taddr i.ns i.nt ≤ d.size ∧ d.size < taddr i.ns (i.nt + 1) := by
  obtain ⟨i, hi, e1, e2, e3, -⟩ := Assess.open_describes d h1 h2 h3
  refine ⟨i, hi, e1, ?_, ?_⟩ <;> (unfold taddr; omega)

/-- **C113** (part). For a file with a header and less than 32768 samples, and a number such that the file has the bytes of that trace,
the program prints six coordinates, which are scalar times integer by the bytes of the header up to rounding in double precision, and
the line numbers if they are not negative.

The full claim is for all files and numbers: `C113_line_refuted`, `C113_last_refuted`, `C113_beyond_refuted`, `C113_minus_refuted`,
`C113_missing_refuted`. -/
theorem C113_shown_partial (argv : List Name) (name : Name) (tn : Nat) (ha : parse argv = .ok ⟨name, tn⟩) (w : World) (d : Disk)
    (hd : w name = some d) (h1 : 3600 ≤ d.size) (h2 : d.size < 2 ^ 63) (h3 : pair d 3220 < 32768)
    (ht : 3600 + (tn + 1) * (240 + 4 * pair d 3220) ≤ d.size) :
    ∃ xs ls, main argv w = .ok (0, xs, ls) ∧ xs.length = 6 ∧ ls.length = 2 ∧
      (Usable (be16 d (pair d 3220) tn 71) → ∀ k, k < 6 →
        ∃ x, xs[k]? = some x ∧ |x - MinMaxMain.value d (pair d 3220) tn k| ≤ 1 / 40000) ∧
      (∀ k loc, (k, loc) ∈ [(0, 189), (1, 193)] → 0 ≤ (be32 d (pair d 3220) tn loc).toInt →
        ∃ l : Nat, ls[k]? = some l ∧ (l : ℤ) = (be32 d (pair d 3220) tn loc).toInt) := by
  obtain ⟨i, hi, hns, hroom, hless⟩ := room h1 h2 h3
  have hlt : tn < i.nt := by
    by_contra hc
    have : (i.nt + 1) * (240 + 4 * i.ns) ≤ (tn + 1) * (240 + 4 * i.ns) := Nat.mul_le_mul_right _ (by omega)
    unfold taddr at hless
    rw [← hns] at ht
    omega
  have e := look_trace hi (by omega) hroom hlt
  rw [hns] at e
  refine ⟨_, _, by rw [main_eq ha w hd, e]; rfl, by simp [place], rfl, ?_, ?_⟩
  · intro hu k hk
    obtain ⟨loc, hloc⟩ : ∃ loc, place[k]? = some loc := ⟨_, List.getElem?_eq_getElem (by simpa [place] using hk)⟩
    refine ⟨_, by rw [List.getElem?_map, hloc]; rfl, ?_⟩
    obtain ⟨z, hz, hz2⟩ := MinMaxMain.decode_near (be16 d (pair d 3220) tn 71) (be32 d (pair d 3220) tn loc) hu
    unfold MinMaxMain.value
    rw [hloc]
    rw [hz] at hz2
    exact hz2
  · have key : ∀ v : BitVec 32, 0 ≤ v.toInt → (((v.signExtend 64).toNat : Nat) : ℤ) = v.toInt := by
      intro v hv
      have h64 : (v.signExtend 64).toInt = v.toInt := BitVec.toInt_signExtend_of_le (by omega)
      rw [← h64] at hv ⊢
      rw [BitVec.toInt_eq_toNat_cond] at hv ⊢
      split at hv
      · rw [if_pos (by assumption)]
      · have := (v.signExtend 64).isLt
        omega
    intro k loc hm h0
    simp only [List.mem_cons, Prod.mk.injEq, List.not_mem_nil, or_false] at hm
    rcases hm with ⟨rfl, rfl⟩ | ⟨rfl, rfl⟩
    · exact ⟨_, rfl, key _ h0⟩
    · exact ⟨_, rfl, key _ h0⟩

/-- C113 fails for negative line numbers: they are printed as numbers near `2^64`. -/
theorem C113_line_refuted (argv : List Name) (name : Name) (tn : Nat) (ha : parse argv = .ok ⟨name, tn⟩) (w : World) (d : Disk)
    (hd : w name = some d) (h1 : 3600 ≤ d.size) (h2 : d.size < 2 ^ 63) (h3 : pair d 3220 < 32768)
    (ht : 3600 + (tn + 1) * (240 + 4 * pair d 3220) ≤ d.size) (hn : (be32 d (pair d 3220) tn 189).toInt < 0) :
    ∃ xs, ∃ l l' : Nat, main argv w = .ok (0, xs, [l, l']) ∧ (l : ℤ) = (be32 d (pair d 3220) tn 189).toInt + 2 ^ 64 := by
  obtain ⟨i, hi, hns, hroom, hless⟩ := room h1 h2 h3
  have hlt : tn < i.nt := by
    by_contra hc
    have : (i.nt + 1) * (240 + 4 * i.ns) ≤ (tn + 1) * (240 + 4 * i.ns) := Nat.mul_le_mul_right _ (by omega)
    unfold taddr at hless
    rw [← hns] at ht
    omega
  have e := look_trace hi (by omega) hroom hlt
  rw [hns] at e
  refine ⟨_, _, _, by rw [main_eq ha w hd, e]; rfl, ?_⟩
  have h64 : ((be32 d (pair d 3220) tn 189).signExtend 64).toInt = (be32 d (pair d 3220) tn 189).toInt :=
    BitVec.toInt_signExtend_of_le (by omega)
  rw [← h64] at hn ⊢
  rw [BitVec.toInt_eq_toNat_cond] at hn ⊢
  split at hn
  · omega
  · rw [if_neg (by assumption)]
    omega

theorem look_none {d : Disk} {i : Info} (h : openRead d = .ok i) (hsz : taddr i.ns i.nt < 2 ^ 63) :
    look d i.nt = .ok ([0, 0, 0, 0, 0, 0], [0, 0]) := by
  have hnt := nt_lt hsz
  have hcl : clamp i.nt i.nt 1 = 0 := by rw [clamp_eq (by omega) (by omega) (by omega)]; omega
  obtain ⟨hsm, hinc, -⟩ := small_of (off := i.nt) (n := 0) hsz (by omega)
  obtain ⟨t', p', r1, r0, -, -, r3⟩ := read_spec dbl iconv (fun _ => rfl) i.ns (.start i.nt) 0 none
    (some (Params.mk 0 dr 1)) 0 d i.nt hsm (fun a b h1 h2 => Nat.le_of_lt (hinc a b h1 h2))
    (fun a ha => absurd ha (by omega))
    (by simp) (by rintro p h; cases h; exact ⟨dr_rule.rd 0 1, Nat.zero_le _⟩) (by simp)
  obtain ⟨p, rfl, hrows⟩ := r3 _ rfl
  rw [r0 rfl] at r1
  rw [look_eq h (p := p) (by unfold readTrace; rw [hcl]; exact r1)]
  refine shown_row hrows.wf hrows.rule hrows.size (fun _ => 0) (fun _ => 0#64) ?_ ?_
  · intro m e he hk _
    have := hrows.rows 0 m e he (by show 0 < 1; omega) (by omega)
    unfold item at this
    rw [hk] at this
    simp only [Sum.inl.injEq] at this
    unfold fval
    rw [Nat.mul_comm, this]
    rfl
  · intro m e he hk
    have := hrows.rows 0 m e he (by show 0 < 1; omega) (by omega)
    unfold item at this
    rw [hk] at this
    simp only [Sum.inr.injEq, Sum.inl.injEq] at this
    unfold lval
    rw [Nat.mul_comm, this]
    rfl

/-- C113 fails for the number of traces as the number of a trace, one too many: zeros are printed and the status is zero. -/
theorem C113_last_refuted (argv : List Name) (name : Name) (tn : Nat) (ha : parse argv = .ok ⟨name, tn⟩) (w : World) (d : Disk)
    (hd : w name = some d) (h1 : 3600 ≤ d.size) (h2 : d.size < 2 ^ 63) (h3 : pair d 3220 < 32768)
    (ht : 3600 + tn * (240 + 4 * pair d 3220) ≤ d.size) (ht2 : d.size < 3600 + (tn + 1) * (240 + 4 * pair d 3220)) :
    main argv w = .ok (0, [0, 0, 0, 0, 0, 0], [0, 0]) := by
  obtain ⟨i, hi, hns, hroom, hless⟩ := room h1 h2 h3
  have e := look_none hi (by omega)
  have htn : tn = i.nt := by
    unfold taddr at hroom hless
    rw [← hns] at ht ht2
    rcases Nat.lt_trichotomy tn i.nt with h | h | h
    · have : (tn + 1) * (240 + 4 * i.ns) ≤ i.nt * (240 + 4 * i.ns) := Nat.mul_le_mul_right _ h
      omega
    · exact h
    · have : (i.nt + 1) * (240 + 4 * i.ns) ≤ tn * (240 + 4 * i.ns) := Nat.mul_le_mul_right _ h
      omega
  rw [main_eq ha w hd, htn, e]
  rfl

/-- C113 fails for a file that is not there: zeros are printed and the status is zero; so it is without any arguments, for there is
no file without a name. -/
theorem C113_missing_refuted (argv : List Name) (name : Name) (ha : parse argv = .ok ⟨name, 0⟩) (w : World) (hd : w name = none) :
    main argv w = .ok (0, [0, 0, 0, 0, 0, 0], [0, 0]) := by
  have e : openRead ⟨0, fun _ => 0#8⟩ = .ok ⟨0, 0, 0, 5#16, []⟩ := by
    unfold openRead
    rw [if_neg (by show ¬ 3600 ≤ 0; omega)]
  have e2 := look_none e (by show 3600 + 0 * (240 + 4 * 0) < 2 ^ 63; omega)
  unfold main MinMaxMain.content
  rw [ha, Res.ok_bind]
  dsimp only
  rw [hd]
  show (do let r ← look ⟨0, fun _ => 0#8⟩ 0; Res.ok ((0 : Int), r)) = _
  rw [e2]
  rfl

/-- C113 fails for greater numbers: the number of traces left is taken for a positive one, and the program ends with an exception as it has
not the memory for so many. -/
theorem C113_beyond_refuted (argv : List Name) (name : Name) (tn : Nat) (ha : parse argv = .ok ⟨name, tn⟩) (w : World) (d : Disk)
    (hd : w name = some d) (h1 : 3600 ≤ d.size) (h2 : d.size < 2 ^ 63) (h3 : pair d 3220 < 32768) (hmax : tn ≤ 2 ^ 55)
    (ht : d.size < 3600 + tn * (240 + 4 * pair d 3220)) : main argv w = .abort := by
  obtain ⟨i, hi, hns, hroom, hless⟩ := room h1 h2 h3
  have htn : i.nt < tn := by
    unfold taddr at hroom
    rw [← hns] at ht
    by_contra hc
    have : tn * (240 + 4 * i.ns) ≤ i.nt * (240 + 4 * i.ns) := Nat.mul_le_mul_right _ (by omega)
    omega
  have hcl : clamp i.nt tn 1 = 2 ^ 64 - (tn - i.nt) := by
    unfold clamp
    rw [if_neg (by omega), add64_eq (by omega), if_pos (by omega)]
    unfold sub64
    omega
  have hal : alloc (mul64 getMDSz (2 ^ 64 - (tn - i.nt))) = .abort := by
    unfold alloc mul64 getMDSz
    obtain ⟨j, hj⟩ : ∃ j, tn - i.nt = j := ⟨_, rfl⟩
    rw [hj]
    have : 240 * (2 ^ 64 - j) = 2 ^ 64 - 240 * j + 239 * 2 ^ 64 := by omega
    rw [this, Nat.add_mul_mod_self_right, Nat.mod_eq_of_lt (by omega), if_neg (by omega)]
  rw [main_eq ha w hd]
  unfold look
  rw [hi, Res.ok_bind, ctor_default, Res.ok_bind]
  unfold readTrace readTraceT readIn
  rw [hcl]
  dsimp only
  rw [hal]
  rfl

/-- The two bytes at a place. -/
def at16 (d : Disk) (a : Nat) : BitVec 16 := fromBE16 (d.byte a) (d.byte (a + 1))

/-- The four bytes at a place. -/
def at32 (d : Disk) (a : Nat) : BitVec 32 := fromBE32 (d.byte a) (d.byte (a + 1)) (d.byte (a + 2)) (d.byte (a + 3))

/-- C113 fails for negative numbers, which are accepted: trace `-1` of a file with traces of at most 840 samples is made of the last
bytes of the header of the file, and the status is zero. -/
theorem C113_minus_refuted (argv : List Name) (name : Name) (ha : parse argv = .ok ⟨name, 2 ^ 64 - 1⟩) (w : World) (d : Disk)
    (hd : w name = some d) (h1 : 3600 ≤ d.size) (h2 : d.size < 2 ^ 63) (h3 : pair d 3220 ≤ 840) :
    ∃ a, a + (240 + 4 * pair d 3220) = 3600 ∧
      main argv w = .ok (0, [73, 77, 81, 85, 181, 185].map fun loc => decode (at16 d (a + 70)) (at32 d (a + (loc - 1))),
        [((at32 d (a + 188)).signExtend 64).toNat, ((at32 d (a + 192)).signExtend 64).toNat]) := by
  obtain ⟨T, hT⟩ : ∃ T, T = 2 ^ 64 - 1 := ⟨_, rfl⟩
  rw [← hT] at ha
  have htr : (Where.start T).trace 0 = T := by
    show add64 T 0 = T
    rw [add64_eq (by omega), Nat.add_zero]
  obtain ⟨i, hi, hns, hroom, hless⟩ := room h1 h2 (by omega)
  rw [← hns] at h3 ⊢
  generalize hns' : i.ns = ns at h3 hns hroom hless
  obtain ⟨A, hA⟩ : ∃ A, A + (240 + 4 * ns) = 3600 := ⟨3600 - (240 + 4 * ns), Nat.sub_add_cancel (by omega)⟩
  refine ⟨A, hA, ?_⟩
  have hcl : clamp i.nt T 1 = 1 := by
    unfold clamp add64
    rw [if_neg (by omega), if_neg (by rw [hT]; norm_num)]
  have hDO : getDOSz ns = 240 + 4 * ns := getDOSz_eq (by omega)
  have hloc : getDOLoc T ns = A := by
    unfold getDOLoc getFileSz
    rw [hDO]
    unfold add64 mul64 getHOSz
    rw [hT]
    omega
  have hal : alloc (mul64 getMDSz 1) = .ok (.fill 240 0#8) := by
    unfold alloc getMDSz
    rw [mul64_eq (by omega), if_pos (by omega)]
  have hbl := wanted_strided A 240 (240 + 4 * ns) 1
  obtain ⟨b, f1, f2, f3, -⟩ := fetch_blocks hbl (.fill 240 0#8) d (Nat.le_refl _) (fun j hj => by
    have : j = 0 := by omega
    subst this
    omega)
  -- the bytes as they would be in a file long enough
  obtain ⟨d', hd'⟩ : ∃ d' : Disk, ∀ o, d'.byte (3600 + T * (240 + 4 * ns) + o) = d.byte (A + o) := by
    refine ⟨⟨0, fun x => d.byte (x - (3600 + T * (240 + 4 * ns)) + A)⟩, fun o => ?_⟩
    dsimp only
    rw [Nat.add_sub_cancel_left, Nat.add_comm]
  obtain ⟨q1, q', e1, e2, hrows⟩ := extract_rows dbl iconv (fun _ => rfl) d' ns (.start T) 1 0 0 (Params.mk 0 dr 1)
    (dr_rule.rd 0 1) (Nat.le_refl _) b (by rw [f2]; exact Nat.le_refl _) (by rw [f2]; show 240 ≤ 2 ^ 64; omega) (by
      intro j hj o ho
      have : j = 0 := by omega
      subst this
      rw [f3 0 o (by omega) ho, htr]
      exact hd' o)
  have hread : readTrace dbl iconv false i.ns i.nt T 1 none (some (mk 0 dr 1)) 0 d = .ok (none, some q') := by
    unfold readTrace readTraceT readIn readReqs
    rw [hcl, hns']
    simp only [if_true, Bool.false_eq_true, if_false]
    rw [hal, Res.ok_bind]
    have hrecv : recv d (.fill 240 0#8) (reqMD ns (.start T) 1) = .ok b := by
      unfold recv
      rw [if_pos (show (reqMD ns (.start T) 1).all (legal false) = true from rfl)]
      simp only [reqMD, List.flatMap_cons, List.flatMap_nil, List.append_nil]
      rw [hloc, hDO]
      exact f1
    rw [hrecv, Res.ok_bind, e1, Res.ok_bind, e2, Res.ok_bind]
    rfl
  have hdec : Decoded dbl (dhdr d' ns T) 0 0 q' dr.map := by
    have := hrows.dec 0 (by omega)
    rwa [htr] at this
  have h16 : ∀ o, val16 (dhdr d' ns T) o = at16 d (A + o) := by
    intro o
    unfold val16 dhdr at16
    dsimp only
    rw [hd', hd', Nat.add_assoc]
  have h32 : ∀ o, val32 (dhdr d' ns T) o = at32 d (A + o) := by
    intro o
    unfold val32 dhdr at32
    dsimp only
    rw [hd', hd', hd', hd', Nat.add_assoc, Nat.add_assoc, Nat.add_assoc]
  rw [main_eq ha w hd, look_eq hi hread, shown_row hrows.wf hrows.rule hrows.size
    (fun loc => decode (at16 d (A + 70)) (at32 d (A + (loc - 1))))
    (fun loc => (at32 d (A + (loc - 1))).signExtend 64) ?_ ?_]
  · rfl
  · intro m e he hk hs
    have := (hdec m e he).2.2 hk
    rw [hs, Nat.zero_add, Nat.zero_add, h16, h32, show 71 - 1 = 70 from rfl] at this
    exact this
  · intro m e he hk
    have := (hdec m e he).2.1 hk
    rw [Nat.zero_add, h32] at this
    exact this

/-! ### Examples -/

/-- Options as they are given: the last number counts, and a negative one is accepted. -/
example : parse (words [.t 7, .i "a.segy".toList, .t 1]) = .ok ⟨"a.segy".toList, 1⟩ ∧
    parse ["-i".toList, "a.segy".toList, "-t".toList, "-1".toList] = .ok ⟨"a.segy".toList, 2 ^ 64 - 1⟩ :=
  ⟨C113_options _ (by intro n hn; simp at hn; omega), by decide +kernel⟩

/-- Two traces of five samples. -/
def exDisk : Disk := Assess.exFile 0#8 5#8

example : 3600 ≤ exDisk.size ∧ exDisk.size < 2 ^ 63 ∧ pair exDisk 3220 = 5 ∧ exDisk.size = 3600 + 2 * (240 + 4 * 5) := by
  have h : exDisk.size = 4120 := rfl
  refine ⟨by omega, by omega, by decide +kernel, by omega⟩

/-- Its second trace is shown, of a third nothing is known, a fourth ends the program. -/
example (w : World) (hw : w "a.segy".toList = some exDisk) :
    (∃ xs ls, main (words [.i "a.segy".toList, .t 1]) w = .ok (0, xs, ls) ∧ xs.length = 6 ∧ ls.length = 2) ∧
    main (words [.i "a.segy".toList, .t 2]) w = .ok (0, [0, 0, 0, 0, 0, 0], [0, 0]) ∧
    main (words [.i "a.segy".toList, .t 3]) w = .abort := by
  have h : exDisk.size = 4120 := rfl
  have h5 : pair exDisk 3220 = 5 := by decide +kernel
  have hp : ∀ n, n < 2 ^ 64 → parse (words [.i "a.segy".toList, .t n]) = .ok ⟨"a.segy".toList, n⟩ := fun n hn =>
    C113_options _ (by intro k hk; simp at hk; omega)
  refine ⟨?_, ?_, ?_⟩
  · obtain ⟨xs, ls, h1, h2, h3, -⟩ := C113_shown_partial _ _ 1 (hp 1 (by omega)) w exDisk hw (by omega) (by omega) (by omega)
      (by rw [h5]; omega)
    exact ⟨xs, ls, h1, h2, h3⟩
  · exact C113_last_refuted _ _ 2 (hp 2 (by omega)) w exDisk hw (by omega) (by omega) (by omega) (by rw [h5]; omega)
      (by rw [h5]; omega)
  · exact C113_beyond_refuted _ _ 3 (hp 3 (by omega)) w exDisk hw (by omega) (by omega) (by omega) (by omega) (by rw [h5]; omega)

/-- A line number that is negative, a scalar that is usable. -/
example : let d : Disk := ⟨3600 + 240, fun x => if 3600 + 188 ≤ x ∧ x < 3600 + 192 then 255#8 else 0#8⟩
    pair d 3220 = 0 ∧ (be32 d 0 0 189).toInt = -1 ∧ Usable (be16 d 0 0 71) :=
  ⟨by decide +kernel, by decide +kernel, Or.inr (by decide +kernel)⟩

end Verif.TraceTool
