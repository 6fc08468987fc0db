import Verif.Util.MinMaxMain
import Verif.Props.SetExtremes
import Verif.Props.SortMain
import Verif.Props.Reread

/-!
# C108: smallest and largest coordinates with the programs `minmax`, from the arguments and files to the files

The claim: called with the names of a SEG-Y file and of another file, `minmax` writes to the latter twelve traces, which have the
headers of traces of the input with the smallest and the largest source, receiver and midpoint coordinates, and leaves the other files
alone; if it cannot it says so with its status. The examples of the same name print these numbers for the files of a set.
-/

namespace Verif.MinMaxMain
open Verif.Endian Verif.Rules Verif.Params Verif.Files Verif.Ops Verif.Flow Verif.Scalar Verif.Extremes Verif.ConcatTool Verif.Options
open Verif.Layout Verif.FP
open Verif.Life (Name isSegy)

/-! ## The options -/

/-- An option of `minmax`. -/
inductive Arg where
  | i (s : Name)
  | o (s : Name)

def Arg.given : Arg → Given
  | .i s => .apart 'i' s
  | .o s => .apart 'o' s

def Arg.i? : Arg → Option Name | .i s => some s | _ => none
def Arg.o? : Arg → Option Name | .o s => some s | _ => none

/-- The arguments as they are given. -/
def words (l : List Arg) : List Name := (l.map Arg.given).flatMap Given.words

theorem fits (l : List Arg) : ∀ g ∈ l.map Arg.given, g.Fits spec := by
  intro g hg
  obtain ⟨a, -, rfl⟩ := List.mem_map.1 hg
  cases a <;> rfl

theorem fold_options (l : List Arg) (y : Opts) : ((l.map Arg.given).filterMap Given.means).foldlM option y =
    some ⟨(l.filterMap Arg.i?).getLast?.getD y.iname, (l.filterMap Arg.o?).getLast?.getD y.oname⟩ := by
  induction l generalizing y with
  | nil => rfl
  | cons a l ih =>
    cases a with
    | i s =>
      show ((l.map Arg.given).filterMap Given.means).foldlM option { y with iname := s } = _
      rw [ih]
      simp [Arg.i?, Arg.o?, List.getLast?_cons]
    | o s =>
      show ((l.map Arg.given).filterMap Given.means).foldlM option { y with oname := s } = _
      rw [ih]
      simp [Arg.i?, Arg.o?, List.getLast?_cons]

/-- **C108** (the options). In any order; of each the last counts. -/
theorem C108_options (l : List Arg) :
    parse (words l) = some ⟨(l.filterMap Arg.i?).getLast?.getD [], (l.filterMap Arg.o?).getLast?.getD []⟩ := by
  unfold parse words
  rw [C101_options spec (by decide) _ (fits l), fold_options]

/-- **C108** (the status). Without a name for the input or for the output, with an empty one, or with a letter that is not known,
wherever it is, the status is -1 and no file is touched. -/
theorem C108_status (P : Nat) (l : List Arg) (w : World) :
    (((l.filterMap Arg.i?).getLast?.getD [] = [] ∨ (l.filterMap Arg.o?).getLast?.getD [] = []) → main P (words l) w = .ok (-1, w)) ∧
    ∀ (z : Char) (s : List Char) (r : List Name), z ≠ 'i' → z ≠ 'o' → z ≠ '-' →
      main P (words l ++ ('-' :: z :: s) :: r) w = .ok (-1, w) := by
  constructor
  · intro h
    unfold main
    rw [C108_options]
    simp only
    rw [if_pos h]
  · intro z s r h1 h2 h3
    have hz : spec z = none := by unfold spec; rw [if_neg (by tauto)]
    have : parse (words l ++ ('-' :: z :: s) :: r) = none := by
      unfold parse words
      rw [getopt_append spec (by decide) _ (fits l), List.foldlM_append, fold_options]
      have e : ∃ t, getopt spec (('-' :: z :: s) :: r) = ('?', []) :: t := by
        conv => enter [1, t]; unfold getopt
        rw [if_neg (by simp [h3])]
        rcases hl : letters spec (z :: s) with ⟨o, x⟩
        have ho : o = ('?', []) :: (letters spec s).1 := by
          unfold letters at hl
          rw [hz] at hl
          exact (congrArg Prod.fst hl).symm
        cases x with
        | none => exact ⟨_, by simp only [hl]; rw [ho]; rfl⟩
        | some x =>
          cases r with
          | nil => exact ⟨_, by simp only [hl]; rw [ho]; rfl⟩
          | cons v r => exact ⟨_, by simp only [hl]; rw [ho]; rfl⟩
      obtain ⟨t, ht⟩ := e
      rw [ht]
      rfl
    unfold main
    rw [this]

/-! ## Values and their order -/

/-- The value of coordinate `k` in the header of trace `t`: scalar times integer. -/
def value (d : Disk) (ns t k : Nat) : ℚ := unit (be16 d ns t 71) * (be32 d ns t (place[k]?.getD 0)).toInt

theorem decode_near (s : BitVec 16) (n : BitVec 32) (h : Usable s) :
    ∃ k : ℤ, (k : ℚ) / 10000 = unit s * n.toInt ∧ |decode s n - k / 10000| ≤ 1 / 40000 := by
  obtain ⟨s1, h, hd, hu, -⟩ := usable_as h
  rw [hd, hu]
  have hn : InI32 n.toInt := by
    have a := BitVec.le_toInt n
    have b := BitVec.toInt_lt (x := n)
    norm_num at a b
    exact ⟨by omega, by omega⟩
  by_cases h1 : s1.toInt ≤ 1
  · obtain ⟨d, hd, hu, hge⟩ := neg_scalar h h1
    obtain ⟨k, hk⟩ : ∃ k : ℤ, k * d = n.toInt * 10000 := by
      rcases hd with rfl | rfl | rfl | rfl | rfl
      · exact ⟨n.toInt * 10000, by ring⟩
      · exact ⟨n.toInt * 1000, by ring⟩
      · exact ⟨n.toInt * 100, by ring⟩
      · exact ⟨n.toInt * 10, by ring⟩
      · exact ⟨n.toInt, by ring⟩
    have hnear := (near_decode hd hu hge hk).1
    refine ⟨k, ?_, le_trans hnear ?_⟩
    · have hd0 : (d : ℚ) ≠ 0 := by rcases hd with rfl | rfl | rfl | rfl | rfl <;> norm_num
      have : (k : ℚ) * d = n.toInt * 10000 := by exact_mod_cast hk
      rw [hu]; field_simp; linarith
    · have hkb : |k| ≤ 2 ^ 31 * 10000 := by
        obtain ⟨a, b⟩ := hn
        rw [abs_le]
        rcases hd with rfl | rfl | rfl | rfl | rfl <;> omega
      have : |(k : ℚ)| ≤ 2 ^ 31 * 10000 := by exact_mod_cast hkb
      rw [abs_div, show |(10000 : ℚ)| = 10000 by norm_num]
      generalize |(k : ℚ)| = x at *
      norm_num at this ⊢
      linarith
  · obtain ⟨j, hj4, hu, hj⟩ := coarse_pow h (by omega)
    have hps : parseScalar s1 = ((10 ^ j : ℤ) : ℚ) := by
      unfold parseScalar; rw [if_neg (by omega), if_pos (by omega), hj]
    have hvb : |(10 : ℤ) ^ j * n.toInt| < 2 ^ 53 := by
      obtain ⟨a, b⟩ := hn
      rw [abs_lt]
      have : j = 0 ∨ j = 1 ∨ j = 2 ∨ j = 3 ∨ j = 4 := by omega
      rcases this with rfl | rfl | rfl | rfl | rfl <;> omega
    have hv : decode s1 n = ((10 ^ j * n.toInt : ℤ) : ℚ) := by
      unfold decode
      rw [hps, ← Int.cast_mul, rnd_int hvb]
    refine ⟨10 ^ j * n.toInt * 10000, ?_, ?_⟩
    · rw [hu]; push_cast; field_simp
    · rw [hv]; push_cast
      rw [show (10 : ℚ) ^ j * (n.toInt : ℚ) - 10 ^ j * n.toInt * 10000 / 10000 = 0 by ring]
      norm_num

/-- Doubles are in the order of the values in the headers. -/
theorem value_le {s s' : BitVec 16} {n n' : BitVec 32} (h : Usable s) (h' : Usable s') (hle : decode s n ≤ decode s' n') :
    unit s * n.toInt ≤ unit s' * n'.toInt := by
  obtain ⟨k, e1, e2⟩ := decode_near s n h
  obtain ⟨k', f1, f2⟩ := decode_near s' n' h'
  rw [← e1, ← f1]
  rw [abs_le] at e2 f2
  have : k ≤ k' := by
    by_contra hc
    have h1 : (k' : ℚ) + 1 ≤ k := by exact_mod_cast (by omega : k' + 1 ≤ k)
    linarith [e2.1, f2.2]
  have : (k : ℚ) ≤ k' := by exact_mod_cast this
  linarith

theorem dr_floats : ∀ {m : Nat} {e : Entry}, (m, some e) ∈ dr.map → e.kind = .float → ∃ k, k < 6 ∧ m = 20 + k := by
  have h : ∀ q ∈ dr.map, ∀ e ∈ q.2, e.kind = .float → ∃ k ∈ List.range 6, q.1 = 20 + k := by unfold dr; decide +kernel
  intro m e hm hk
  obtain ⟨k, h1, h2⟩ := h (m, some e) hm e rfl hk
  exact ⟨k, List.mem_range.1 h1, h2⟩

theorem open_inc {d : Disk} {i : Info} (h : openRead d = .ok i) (h0 : i.inc ≠ 0) : ∃ iv : BitVec 16, i.inc = rnd (micro * iv.toInt) := by
  unfold openRead at h
  split at h
  · obtain ⟨b, -, h⟩ := of_bind h
    obtain ⟨ns, -, h⟩ := of_bind h
    obtain ⟨nt, hnt, h⟩ := of_bind h
    obtain ⟨iv, -, h⟩ := of_bind h
    obtain ⟨ty, -, h⟩ := of_bind h
    rw [Res.ok.injEq] at h
    subst h
    exact ⟨iv, rfl⟩
  · rw [Res.ok.injEq] at h
    subst h
    exact absurd rfl h0

/-! ## The files -/

/-- **C108** (part): `minmax` with a SEG-Y input that has traces, usable coordinate scalars and a sample interval. The status is zero,
the output is a SEG-Y file of twelve traces of one sample, the number one, with the interval of the input, and no other file is
touched. Its traces come in pairs, for source x and y, receiver x and y, midpoint x and y: the first has all coordinates of a trace of
the input where this coordinate is smallest, the second where it is largest, in value, with their offset and line numbers, and (the
low 32 bits of) the number of that trace. Whatever was in the output before. Missing: inputs without an interval
(`C108_interval_refuted`), without traces or missing (`C108_missing_refuted`), the same name twice (`C108_input_refuted`). -/
theorem C108_files_partial (P : Nat) (hP : 0 < P) (argv : List Name) (iname oname : Name) (w : World) (d : Disk) (i : Info)
    (hargs : parse argv = some ⟨iname, oname⟩) (hin : iname ≠ []) (hon : oname ≠ []) (hne : oname ≠ iname)
    (hw : w iname = some d) (hd : Readable d i) (hnt : 0 < i.nt) (hinc : 0 < i.inc)
    (hs : ∀ t, t < i.nt → Usable (be16 d i.ns t 71)) :
    ∃ (out : Disk) (nums : List Nat), main P argv w = .ok (0, Function.update w oname (some out)) ∧
      (∃ text, openRead out = .ok ⟨1, 12, i.inc, 5#16, text⟩) ∧ nums.length = 12 ∧
      (∀ k, k < 6 → ∃ lo hi, nums[2 * k]? = some lo ∧ nums[2 * k + 1]? = some hi ∧ lo < i.nt ∧ hi < i.nt ∧
        ∀ t, t < i.nt → value d i.ns lo k ≤ value d i.ns t k ∧ value d i.ns t k ≤ value d i.ns hi k) ∧
      ∀ r t, nums[r]? = some t → (∀ k, k < 6 → value out 1 r k = value d i.ns t k) ∧
        (∀ loc ∈ [37, 189, 193], be32 out 1 r loc = be32 d i.ns t loc) ∧
        be32 out 1 r 5 = BitVec.ofNat 32 t ∧ be32 out 1 r 241 = 0x3f800000#32 := by
  obtain ⟨a1, a2⟩ := hd.addr
  have hops : ∀ t, t < i.nt → ∀ k, k < 6 → (∃ s, dbl.findScalar (coord dbl d i.ns t k) = .ok s) ∧
      ∀ s, ∃ n, dbl.encode (coord dbl d i.ns t k) s = .ok n := fun t _ k _ => convertible _ _
  obtain ⟨iv, hiv⟩ := open_inc hd.opens hinc.ne'
  obtain ⟨n1, -, n3, n4⟩ := inc_again (iv := iv) (by rw [← hiv]; exact hinc)
  have n2 := (near_micro (by exact_mod_cast n3) (by exact_mod_cast n4) (read_inc_near iv.toInt n3)).2
  rw [← hiv] at n1 n2
  obtain ⟨nums, o, out, e1, e2, e3, e4, e5, f1, f2, f3, f4, f5⟩ := file_spec dbl asDouble (fun _ => rfl) asInt (fun _ => rfl)
    (fun _ => rfl) 0 P i.ns i.nt d (content w oname) hP hnt a1 (a2 hnt) hops i.inc iv.toInt (by omega) n4 n2 n1
  refine ⟨out, nums, ?_, ?_, e3, ?_, ?_⟩
  · have hc : content w iname = d := by unfold content; rw [hw]; rfl
    unfold main
    rw [hargs]
    simp only
    rw [if_neg (by tauto)]
    unfold calcFiles
    simp only [hc]
    rw [hd.opens, Res.ok_bind, e1, Res.ok_bind, if_neg (by tauto), e2]
    rfl
  · obtain ⟨text, ht⟩ := e4
    exact ⟨text, by rw [ht, ← hiv]⟩
  · intro k hk
    obtain ⟨lo, hi, k1, k2, k3, k4, k5⟩ := e5 k hk
    exact ⟨lo, hi, k1, k2, k3, k4, fun t ht => ⟨value_le (hs lo k3) (hs t ht) (k5 t ht).1, value_le (hs t ht) (hs hi k4) (k5 t ht).2⟩⟩
  · intro r t hr
    have hr12 : r < 12 := by have := (List.getElem?_eq_some_iff.1 hr).1; omega
    obtain ⟨w1, h, hh, b16, b32⟩ := f5 r hr12
    obtain ⟨ht, s1, s2⟩ := f4 r t hr
    have hval : ∀ k e, k < 6 → (20 + k, some e) ∈ dr.map → e.kind = .float → fval o r e = coord dbl d i.ns t k := by
      intro k e hk he hf
      unfold fval
      rw [Nat.mul_comm]
      exact stored_float f1 f2 (by rw [f3]; exact hr12) s1 hk he hf
    refine ⟨?_, ?_, ?_, w1⟩
    · intro k hk
      obtain ⟨e, k1, k2, k3, k4⟩ := dr_float k hk
      have := again_values (fs := fsOf dbl) (en := enOf dbl) (fun v s h => by
        show okOr 1#16 (findScalar v) = s; rw [h]; rfl)
        (fun v s n h => by show okOr 0#32 (encode v s) = n; rw [h]; rfl) hh.items (by rw [f2]; exact k1) k2 (hs t ht) (by
          intro x hx _
          obtain ⟨m', h1, h2⟩ := mem_floatsOf.1 hx
          rw [f2] at h1
          obtain ⟨k', hk', rfl⟩ := dr_floats h1 h2
          exact ⟨_, hval k' x hk' h1 h2⟩) (hval k e hk k1 k2)
      have h2 := this.2.1
      rw [k3, k4] at h2
      unfold value
      rw [b16, b32]
      exact h2
    · intro loc hloc
      rw [b32]; exact (row_numbers f1 f2 f3 hr12 s1 s2 hh).2 loc hloc
    · rw [b32]; exact (row_numbers f1 f2 f3 hr12 s1 s2 hh).1

/-! ## What goes wrong -/

theorem main_run {P : Nat} {argv : List Name} {iname oname : Name} {w : World} (hargs : parse argv = some ⟨iname, oname⟩)
    (hin : iname ≠ []) (hon : oname ≠ []) : main P argv w = calcFiles P iname oname w >>= fun w' => .ok (0, w') := by
  unfold main
  rw [hargs]
  simp only
  rw [if_neg (by tauto)]

/-- The files after a run in which the increment of the input is zero. -/
theorem left_run {P : Nat} (hP : 0 < P) {argv : List Name} {iname oname : Name} {w : World} {i : Info} {o : Param ℚ}
    (hargs : parse argv = some ⟨iname, oname⟩) (hin : iname ≠ []) (hon : oname ≠ []) (hne : oname ≠ iname)
    (ho : openRead (content w iname) = .ok i) (hinc : i.inc = 0)
    (hc : calcMin dbl asDouble asInt 0 P i.ns i.nt (content w iname) = .ok o) (hwf : WF o) (hr : o.rule = dr) (h12 : o.sz = 12)
    (hall : ∀ r, r < 12 → ∀ k, k < 6 → ∃ s n, ∀ (T : Type) (cv : Conv ℚ T), getPrm cv r (20 + k) o = .ok (cv.ofF (decode s n))) :
    ∃ out, main P argv w = .ok (0, Function.update w oname (some out)) ∧
      ∀ x, x < 3600 → out.byte x = (content w oname).byte x := by
  have hprm : PrmOk dbl o := prmOk_rows dbl o hwf hr fun row hrow k hk => by
    obtain ⟨s, n, h⟩ := hall row (by omega) k hk
    exact ⟨_, h, convertible s n⟩
  obtain ⟨d1, w1, -, -, w4⟩ := rows_written dbl o hprm h12 (content w oname)
  refine ⟨d1, ?_, w4⟩
  rw [main_run hargs hin hon]
  unfold calcFiles
  simp only
  rw [ho, Res.ok_bind, hc, Res.ok_bind, if_neg (by tauto), rows_left dbl P hP i.inc (by
    rw [hinc, abs_zero]; exact zpow_pos (by norm_num) _) o _ w1]
  rfl

/-- C108 fails: if the header of the input does not give a sample interval the status is zero, but the header of the output is not
written. What was there before is left, zeros in a new file, and the traces are written after it. -/
theorem C108_interval_refuted (P : Nat) (hP : 0 < P) (argv : List Name) (iname oname : Name) (w : World) (d : Disk) (i : Info)
    (hargs : parse argv = some ⟨iname, oname⟩) (hin : iname ≠ []) (hon : oname ≠ []) (hne : oname ≠ iname)
    (hw : w iname = some d) (hd : Readable d i) (hnt : 0 < i.nt) (hinc : i.inc = 0) :
    ∃ out, main P argv w = .ok (0, Function.update w oname (some out)) ∧
      (∀ x, x < 3600 → out.byte x = (content w oname).byte x) ∧ (w oname = none → ∀ x, x < 3600 → out.byte x = 0#8) := by
  obtain ⟨a1, a2⟩ := hd.addr
  have hc : content w iname = d := by unfold content; rw [hw]; rfl
  obtain ⟨nums, o, e1, e2, e3, e4, e5, e6, e7⟩ := calcMin_spec dbl asDouble (fun _ => rfl) asInt (fun _ => rfl) (fun _ => rfl) 0 P
    i.ns i.nt d hP hnt a1 (a2 hnt)
  obtain ⟨out, h1, h2⟩ := left_run hP hargs hin hon hne (by rw [hc]; exact hd.opens) hinc (by rw [hc]; exact e1) e3 e4 e5 (by
    intro r hr k hk
    have hlt : r < nums.length := by omega
    exact ⟨_, _, (e7 r nums[r] (List.getElem?_eq_getElem hlt)).1.1 k hk⟩)
  refine ⟨out, h1, h2, fun h0 x hx => ?_⟩
  rw [h2 x hx]
  unfold content
  rw [h0]
  rfl

/-- C108 fails: if there is no input, or if it is too short to have a header, the status is zero and twelve traces are written, without
a header of the file. -/
theorem C108_missing_refuted (P : Nat) (hP : 0 < P) (argv : List Name) (iname oname : Name) (w : World)
    (hargs : parse argv = some ⟨iname, oname⟩) (hin : iname ≠ []) (hon : oname ≠ []) (hne : oname ≠ iname)
    (hw : ∀ d, w iname = some d → d.size < 3600) :
    ∃ out, main P argv w = .ok (0, Function.update w oname (some out)) ∧
      (∀ x, x < 3600 → out.byte x = (content w oname).byte x) ∧ (w oname = none → ∀ x, x < 3600 → out.byte x = 0#8) := by
  have hsz : (content w iname).size < 3600 := by
    unfold content
    rcases h : w iname with _ | d
    · show 0 < 3600; omega
    · exact hw d h
  have ho : openRead (content w iname) = .ok ⟨0, 0, 0, 5#16, []⟩ := by
    unfold openRead
    rw [if_neg (by unfold getHOSz; omega)]
  obtain ⟨o, b, e1, e2, e3, e4, -, e6⟩ := calcMin_none dbl asDouble (fun _ => rfl) asInt (fun _ => rfl) (fun _ => rfl) 0 P 0
    (content w iname) hP (by omega)
  obtain ⟨out, h1, h2⟩ := left_run hP hargs hin hon hne ho rfl e1 e2 e3 e4
    fun r hr k hk => ⟨_, _, fun T cv => (e6 r hr T cv).2 k hk⟩
  refine ⟨out, h1, h2, fun h0 x hx => ?_⟩
  rw [h2 x hx]
  unfold content
  rw [h0]
  rfl

/-- C108 fails: with a header but no traces in the input the status is zero, and the output is a SEG-Y file of twelve traces, each
with the number 2^32 - 1. -/
theorem C108_empty_refuted (P : Nat) (hP : 0 < P) (argv : List Name) (iname oname : Name) (w : World) (d : Disk) (i : Info)
    (hargs : parse argv = some ⟨iname, oname⟩) (hin : iname ≠ []) (hon : oname ≠ []) (hne : oname ≠ iname)
    (hw : w iname = some d) (hd : Readable d i) (hnt : i.nt = 0) (hns : i.ns ≤ 840) (hinc : 0 < i.inc) :
    ∃ out, main P argv w = .ok (0, Function.update w oname (some out)) ∧
      (∃ text, openRead out = .ok ⟨1, 12, i.inc, 5#16, text⟩) ∧ ∀ r, r < 12 → be32 out 1 r 5 = 0xffffffff#32 := by
  have hc : content w iname = d := by unfold content; rw [hw]; rfl
  obtain ⟨iv, hiv⟩ := open_inc hd.opens hinc.ne'
  obtain ⟨n1, -, n3, n4⟩ := inc_again (iv := iv) (by rw [← hiv]; exact hinc)
  have n2 := (near_micro (by exact_mod_cast n3) (by exact_mod_cast n4) (read_inc_near iv.toInt n3)).2
  rw [← hiv] at n1 n2
  obtain ⟨o, b, e1, e2, e3, e4, -, e6⟩ := calcMin_none dbl asDouble (fun _ => rfl) asInt (fun _ => rfl) (fun _ => rfl) 0 P i.ns
    d hP hns
  have hprm : PrmOk dbl o := prmOk_rows dbl o e2 e3 fun row hrow k hk =>
    ⟨_, fun T cv => (e6 row (by omega) T cv).2 k hk, convertible _ _⟩
  obtain ⟨d1, w1, -, w3, -⟩ := rows_written dbl o hprm e4 (content w oname)
  obtain ⟨out, c1, c2, text, c3⟩ := rows_closed dbl P hP i.inc iv.toInt (by omega) n4 n2 n1 o (content w oname) w1
  refine ⟨out, ?_, ⟨text, by rw [c3, ← hiv]⟩, ?_⟩
  · rw [main_run hargs hin hon]
    unfold calcFiles
    simp only [hc]
    rw [hd.opens, Res.ok_bind, hnt, e1, Res.ok_bind, if_neg (by tauto), c1]
    rfl
  · intro r hr
    obtain ⟨e, k1, k2, k3⟩ := dr_long 5 5 (by simp)
    have := ((w3 r hr).items 5 e (by rw [e3]; exact k1)).2.1 k2
    rw [Nat.mul_comm, stored_long e2 e3 (by rw [e4]; exact hr) k1 k2 (fun T cv => (e6 r hr T cv).1), k3] at this
    unfold be32
    rw [c2 _ (by omega), c2 _ (by omega), c2 _ (by omega), c2 _ (by omega)]
    exact this.trans (by decide)

/-- C108 fails: with the same name for input and output the behaviour is undefined, whatever the input. -/
theorem C108_input_refuted (P : Nat) (hP : 0 < P) (argv : List Name) (name : Name) (w : World) (d : Disk) (i : Info)
    (hargs : parse argv = some ⟨name, name⟩) (hin : name ≠ []) (hw : w name = some d) (hd : Readable d i) (hnt : 0 < i.nt) :
    main P argv w = .ub := by
  obtain ⟨a1, a2⟩ := hd.addr
  have hc : content w name = d := by unfold content; rw [hw]; rfl
  obtain ⟨nums, o, e1, -⟩ := calcMin_spec dbl asDouble (fun _ => rfl) asInt (fun _ => rfl) (fun _ => rfl) 0 P
    i.ns i.nt d hP hnt a1 (a2 hnt)
  rw [main_run hargs hin hin]
  unfold calcFiles
  simp only [hc]
  rw [hd.opens, Res.ok_bind, e1, Res.ok_bind, if_pos (by simp [hw])]
  rfl

/-! ## The examples of the same name -/

/-- **C108** (the examples, part): `examples/minmax.cc` with a pattern. If the files that match it are SEG-Y files with traces, and for
each coordinate some trace has a positive value, the numbers printed for each coordinate are the smallest and the largest value of all
traces of all files, with the numbers of traces that have them. So does `examples/minmax.c`. -/
theorem C108_example_partial (P : Nat) (hP : 0 < P) (glob : Name → List Name) (name : Name) (hname : name ≠ []) (w : World)
    (ds : List Disk) (hglob : glob name ≠ []) (hopen : ((glob name).filter isSegy).map w = ds.map some) (info : Disk → Info)
    (hd : ∀ d ∈ ds, Readable d (info d)) (hnt : ∀ d ∈ ds, 0 < (info d).nt)
    (hpos : ∀ k, k < 6 → ∃ d ∈ ds, ∃ t, t < (info d).nt ∧ 0 < itemVal d (info d).ns (20 + k) t) :
    ∃ e : List (Elem ℚ), exMain P glob [['-', 'i'], name] w = .ok e ∧ exMainC P glob [['-', 'i'], name] w = .ok e ∧ e.length = 12 ∧
      ∀ k, k < 6 → ∃ lo hi, e[2 * k]? = some lo ∧ e[2 * k + 1]? = some hi ∧
        Bounds ds (fun d => (info d).nt) (fun d => itemVal d (info d).ns (20 + k)) lo hi := by
  have hi : ∀ k, k < 6 → HeaderItem (20 + k) := fun k hk => ⟨by omega, by omega⟩
  have hdi : ∀ k, k < 6 → DefaultItem (20 + k) := fun k hk => Or.inl ⟨by omega, by omega⟩
  have hp : ∀ a b, a < 6 → b < 6 → ∀ m, m = 20 + a ∨ m = 20 + b → ∃ d ∈ ds, ∃ t, t < (info d).nt ∧ 0 < itemVal d (info d).ns m t := by
    rintro a b ha hb m (rfl | rfl)
    · exact hpos a ha
    · exact hpos b hb
  obtain ⟨a0, a1, a2, a3, r1, x1, x2, x3, x4, -⟩ := C102_extremes_partial P hP (20 + 0) (20 + 1) (hi 0 (by omega)) (hi 1 (by omega))
    cr set_rule ds info hd hnt (Or.inr ⟨hdi 0 (by omega), hdi 1 (by omega)⟩) (hp 0 1 (by omega) (by omega))
  obtain ⟨b0, b1, b2, b3, r2, y1, y2, y3, y4, -⟩ := C102_extremes_partial P hP (20 + 2) (20 + 3) (hi 2 (by omega)) (hi 3 (by omega))
    r1 x4 ds info hd hnt (Or.inr ⟨hdi 2 (by omega), hdi 3 (by omega)⟩) (hp 2 3 (by omega) (by omega))
  obtain ⟨c0, c1, c2, c3, r3, z1, z2, z3, z4, -⟩ := C102_extremes_partial P hP (20 + 4) (20 + 5) (hi 4 (by omega)) (hi 5 (by omega))
    r2 y4 ds info hd hnt (Or.inr ⟨hdi 4 (by omega), hdi 5 (by omega)⟩) (hp 4 5 (by omega) (by omega))
  have ho : openAll w ((glob name).filter isSegy) = .ok ds := by
    generalize (glob name).filter isSegy = l at hopen
    unfold openAll
    clear x1 x2 x3 y1 y2 y3 z1 z2 z3 hp hpos hd hnt
    induction l generalizing ds with
    | nil =>
      cases ds with
      | nil => rfl
      | cons d ds => simp at hopen
    | cons n l ih =>
      cases ds with
      | nil => simp at hopen
      | cons d ds =>
        rw [List.map_cons, List.map_cons, List.cons.injEq] at hopen
        unfold collect
        rw [hopen.1]
        simp only [Res.ok_bind]
        rw [ih ds hopen.2]
        rfl
  have hrun : exRun P glob name w = .ok [a0, a1, a2, a3, b0, b1, b2, b3, c0, c1, c2, c3] := by
    unfold exRun
    rw [if_neg hglob, ho, Res.ok_bind, ctor_copy, Res.ok_bind]
    unfold setExtremes12
    rw [x1, Res.ok_bind]
    simp only
    rw [y1, Res.ok_bind]
    simp only
    rw [z1, Res.ok_bind]
    rfl
  have hg : getopt exSpec [['-', 'i'], name] = [('i', name)] := by
    have := C101_options exSpec (by decide) [.apart 'i' name] (by simp [Given.Fits, exSpec])
    simpa [Given.words, Given.means] using this
  refine ⟨[a0, a1, a2, a3, b0, b1, b2, b3, c0, c1, c2, c3], ?_, ?_, rfl, ?_⟩
  · unfold exMain
    rw [hg, ← hrun]
    show (if name = [] then _ else _) = _
    rw [if_neg hname]
    rfl
  · unfold exMainC
    rw [hg, ← hrun]
    rfl
  · intro k hk
    have : k = 0 ∨ k = 1 ∨ k = 2 ∨ k = 3 ∨ k = 4 ∨ k = 5 := by omega
    rcases this with rfl | rfl | rfl | rfl | rfl | rfl
    · exact ⟨_, _, rfl, rfl, x2⟩
    · exact ⟨_, _, rfl, rfl, x3⟩
    · exact ⟨_, _, rfl, rfl, y2⟩
    · exact ⟨_, _, rfl, rfl, y3⟩
    · exact ⟨_, _, rfl, rfl, z2⟩
    · exact ⟨_, _, rfl, rfl, z3⟩

/-- C108 fails: for an unknown option the two versions of the example differ. The one in C++ goes on with the name it has, after a
message; in the one in C the behaviour is undefined. So it is if the name itself is left out. -/
theorem C108_letter_refuted (P : Nat) (glob : Name → List Name) (name : Name) (z : Char) (hz : z ≠ 'i')
    (hd : z ≠ '-') (w : World) :
    exMain P glob [['-', 'i'], name, ['-', z]] w = exMain P glob [['-', 'i'], name] w ∧
      exMainC P glob [['-', 'i'], name, ['-', z]] w = .ub ∧ exMainC P glob [['-', 'i']] w = .ub := by
  have hs : exSpec z = none := by unfold exSpec; rw [if_neg hz]
  have h1 : getopt exSpec [['-', 'i'], name] = [('i', name)] := by
    have := C101_options exSpec (by decide) [.apart 'i' name] (by simp [Given.Fits, exSpec])
    simpa [Given.words, Given.means] using this
  have h2 : getopt exSpec [['-', 'i'], name, ['-', z]] = [('i', name), ('?', [])] := by
    have := getopt_append exSpec (by decide) [.apart 'i' name] (by simp [Given.Fits, exSpec]) [['-', z]]
    have h3 : getopt exSpec [['-', z]] = [('?', [])] := by simp [getopt, letters, hs, hd]
    rw [h3] at this
    simpa [Given.words, Given.means] using this
  refine ⟨?_, ?_, rfl⟩
  · unfold exMain
    rw [h1, h2]
    rfl
  · unfold exMainC
    rw [h2]
    rfl

/-! ## Examples -/

/-- The files: three traces with coordinate scalar -100 and source coordinates (0.30, 0.20), (0.30, 0.25), (0.40, 0), and another. -/
def exWorld : World := fun n =>
  if n = ['a'] then some (recFile 3 exCoords) else if n = ['b'] then some (exFile true 2 7#8)
  else if n = ['c'] then some (exFile false 0 7#8) else none

theorem ex_args (a b : Name) : parse [['-', 'o'], ['x'], ['-', 'i'], a, ['-', 'o'], b] = some ⟨a, b⟩ :=
  C108_options [.o ['x'], .i a, .o b]

/-- Three traces on two processes: the second row has the third trace, where source x is largest, 0.40. -/
example : ∃ out, main 2 [['-', 'o'], ['x'], ['-', 'i'], ['a'], ['-', 'o'], ['z']] exWorld =
      .ok (0, Function.update exWorld ['z'] (some out)) ∧ value out 1 1 0 = 2 / 5 ∧ be32 out 1 1 5 = 2#32 := by
  obtain ⟨r1, r2, r3⟩ := infoOf_rec (n := 3) exCoords (by decide)
  have hinc : 0 < (infoOf (recFile 3 exCoords)).inc := by
    obtain ⟨t, ht⟩ := recFile_open (n := 3) exCoords (by decide)
    have := r1.opens
    rw [ht, Res.ok.injEq] at this
    rw [← this]
    exact exInc_pos
  have hs : ∀ t, t < 3 → Usable (be16 (recFile 3 exCoords) 1 t 71) := by
    have : ∀ t ∈ List.range 3, be16 (recFile 3 exCoords) 1 t 71 = BitVec.ofInt 16 (-100) := by decide +kernel
    intro t ht
    rw [this t (List.mem_range.2 ht)]
    exact Or.inl (by unfold Accepted; decide)
  obtain ⟨out, nums, h1, -, -, h4, h5⟩ := C108_files_partial 2 (by omega) _ ['a'] ['z'] exWorld _ _ (ex_args _ _) (by decide)
    (by decide) (by decide) rfl r1 (by omega) hinc (by rw [r2, r3]; exact hs)
  refine ⟨out, h1, ?_⟩
  obtain ⟨lo, hi, -, k2, -, k4, k5⟩ := h4 0 (by omega)
  rw [r2] at k4 k5
  rw [r3] at k5 h5
  have v : ∀ t, t < 3 → value (recFile 3 exCoords) 1 t 0 = if t = 2 then 2 / 5 else 3 / 10 := by
    have : ∀ t ∈ List.range 3, value (recFile 3 exCoords) 1 t 0 = if t = 2 then 2 / 5 else 3 / 10 := by decide +kernel
    exact fun t ht => this t (List.mem_range.2 ht)
  have hhi : hi = 2 := by
    by_contra hc
    have := (k5 2 (by omega)).2
    rw [v 2 (by omega), v hi k4, if_pos rfl, if_neg hc] at this
    norm_num at this
  subst hhi
  obtain ⟨g1, -, g3, -⟩ := h5 1 2 k2
  exact ⟨by rw [g1 0 (by omega), v 2 (by omega)]; rfl, g3⟩

/-- An input without an interval, one without traces and one that is missing. -/
example : (∃ out, main 2 [['-', 'o'], ['x'], ['-', 'i'], ['b'], ['-', 'o'], ['z']] exWorld =
      .ok (0, Function.update exWorld ['z'] (some out)) ∧ out.byte 3221 = 0#8) ∧
    (∃ out, main 2 [['-', 'o'], ['x'], ['-', 'i'], ['c'], ['-', 'o'], ['z']] exWorld =
      .ok (0, Function.update exWorld ['z'] (some out)) ∧ be32 out 1 0 5 = 0xffffffff#32) ∧
    (∃ out, main 2 [['-', 'o'], ['x'], ['-', 'i'], ['d'], ['-', 'o'], ['z']] exWorld =
      .ok (0, Function.update exWorld ['z'] (some out)) ∧ out.byte 3221 = 0#8) ∧
    main 2 [['-', 'o'], ['x'], ['-', 'i'], ['b'], ['-', 'o'], ['b']] exWorld = .ub := by
  obtain ⟨t, o⟩ := exFile_open true (n := 2) 7#8 (by decide)
  have hb : Readable (exFile true 2 7#8) ⟨1, 2, exInc true, 5#16, t⟩ := ⟨o, by decide, by show 1 ≤ 32767; omega⟩
  obtain ⟨t', o'⟩ := exFile_open false (n := 0) 7#8 (by decide)
  have hc : Readable (exFile false 0 7#8) ⟨1, 0, exInc false, 5#16, t'⟩ := ⟨o', by decide, by show 1 ≤ 32767; omega⟩
  refine ⟨?_, ?_, ?_, ?_⟩
  · obtain ⟨out, h1, -, h3⟩ := C108_interval_refuted 2 (by omega) _ ['b'] ['z'] exWorld _ _ (ex_args _ _) (by decide) (by decide)
      (by decide) rfl hb (by show 0 < 2; omega) exInc_zero
    exact ⟨out, h1, h3 rfl _ (by omega)⟩
  · obtain ⟨out, h1, -, h3⟩ := C108_empty_refuted 2 (by omega) _ ['c'] ['z'] exWorld _ _ (ex_args _ _) (by decide) (by decide)
      (by decide) rfl hc rfl (by show 1 ≤ 840; omega) exInc_pos
    exact ⟨out, h1, h3 0 (by omega)⟩
  · obtain ⟨out, h1, -, h3⟩ := C108_missing_refuted 2 (by omega) _ ['d'] ['z'] exWorld (ex_args _ _) (by decide) (by decide)
      (by decide) (fun d h => by cases h)
    exact ⟨out, h1, h3 rfl _ (by omega)⟩
  · exact C108_input_refuted 2 (by omega) _ ['b'] exWorld _ _ (ex_args _ _) (by decide) rfl hb (by show 0 < 2; omega)

/-- An unknown letter among others, and no output. -/
example : main 2 [['-', 'i'], ['a'], ['-', 'v'], ['-', 'o'], ['z']] exWorld = .ok (-1, exWorld) ∧
    main 2 [['-', 'i'], ['a']] exWorld = .ok (-1, exWorld) :=
  ⟨(C108_status 2 [.i ['a']] exWorld).2 'v' [] [['-', 'o'], ['z']] (by decide) (by decide) (by decide),
   (C108_status 2 [.i ['a']] exWorld).1 (Or.inr rfl)⟩

/-- Records with all six coordinates 1 in the first trace, 2 in the second, ... -/
def exPlaces (x : Nat) : Byte := if x % 244 ∈ [75, 79, 83, 87, 183, 187] then BitVec.ofNat 8 (x / 244 + 1) else 0#8

/-- Two files match the pattern, one of them is not taken for a SEG-Y file. -/
example : ∃ e : List (Elem ℚ), exMainC 3 (fun _ => ["a.sgy".toList, "b".toList]) [['-', 'i'], ['*']]
      (fun n => if n = "a.sgy".toList then some (recFile 2 exPlaces) else none) = .ok e ∧ e.length = 12 := by
  obtain ⟨r1, r2, r3⟩ := infoOf_rec (n := 2) exPlaces (by decide)
  obtain ⟨e, -, h2, h3, -⟩ := C108_example_partial 3 (by omega) (fun _ => ["a.sgy".toList, "b".toList]) ['*'] (by decide)
    (fun n => if n = "a.sgy".toList then some (recFile 2 exPlaces) else none) [recFile 2 exPlaces] (by simp)
    (by
      have : List.filter isSegy ["a.sgy".toList, "b".toList] = ["a.sgy".toList] := by decide
      rw [this]
      simp)
    infoOf (by simpa using r1) (by simp [r2]) (by
      intro k hk
      refine ⟨_, List.mem_singleton.2 rfl, 0, by omega, ?_⟩
      rw [r3]
      have : ∀ k ∈ List.range 6, 0 < itemVal (recFile 2 exPlaces) 1 (20 + k) 0 := by decide +kernel
      exact this k (List.mem_range.2 hk))
  exact ⟨e, h2, h3⟩

end Verif.MinMaxMain
