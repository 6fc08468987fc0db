import Verif.Util.Assess
import Verif.Props.RepTool
import Verif.Props.Life
import Verif.Props.SortMain

/-!
C112: the programs that look at files.
-/

namespace Verif.Assess
open Verif.Endian Verif.Files Verif.Layout Verif.Options Verif.Flow Verif.FP Verif.Util
open Verif.ConcatTool (World)
open Verif.Life (Name isSegy)
open Verif.MinMaxMain (content)

theorem cropenSpec_alphabet : cropenSpec = alphabet ['i'] [] := by
  funext c
  simp [cropenSpec, alphabet]

/-- Two bytes of a file as a number. -/
def pair (d : Disk) (p : Nat) : Nat := (d.byte p).toNat * 256 + (d.byte (p + 1)).toNat

theorem pair_lt (d : Disk) (p : Nat) : pair d p < 65536 := by
  unfold pair
  have := (d.byte p).isLt
  have := (d.byte (p + 1)).isLt
  omega

/-- The same as a signed number. -/
def signed (d : Disk) (p : Nat) : Int := if pair d p < 32768 then pair d p else (pair d p : Int) - 65536

theorem pair_toInt (d : Disk) (p : Nat) : (fromBE16 (d.byte p) (d.byte (p + 1))).toInt = signed d p := by
  have h : (fromBE16 (d.byte p) (d.byte (p + 1))).toNat = pair d p := fromBE16_toNat _ _
  rw [BitVec.toInt_eq_toNat_cond, h]
  unfold signed
  split <;> split <;> omega

theorem pair_extend (d : Disk) (p : Nat) :
    ((fromBE16 (d.byte p) (d.byte (p + 1))).signExtend 64).toNat =
      if pair d p < 32768 then pair d p else pair d p + (2 ^ 64 - 65536) := by
  have h : (fromBE16 (d.byte p) (d.byte (p + 1))).toNat = pair d p := fromBE16_toNat _ _
  have hl := pair_lt d p
  rw [BitVec.toNat_signExtend, BitVec.msb_eq_decide, BitVec.toNat_setWidth, h]
  by_cases hc : pair d p < 32768
  · simp [hc]; split <;> omega
  · simp [hc]; split <;> omega

/-- The names taken: those that end in `segy` or `sgy`. -/
def Ends (n : Name) : Prop :=
  ∃ stem e, n = stem ++ e ∧ (e.map Char.toLower = "segy".toList ∨ e.map Char.toLower = "sgy".toList)

/-- What is true of a file with header: the number of samples from bytes 3221 and 3222, as many traces as the file has room for, the interval from
bytes 3217 and 3218 in seconds, and the text, read as ASCII or EBCDIC. -/
def Describes (d : Disk) (i : Info) : Prop :=
  i.ns = pair d 3220 ∧ 3600 + i.nt * (240 + 4 * i.ns) ≤ d.size ∧ d.size < 3600 + (i.nt + 1) * (240 + 4 * i.ns) ∧
    i.inc = rnd (rnd (1 / 1000000) * signed d 3216) ∧
    i.text = CharEnc.readText ((List.range 3200).map fun k => (d.byte k).toNat)

theorem open_describes (d : Disk) (h1 : 3600 ≤ d.size) (h2 : d.size < 2 ^ 63) (h3 : pair d 3220 < 32768) :
    ∃ i, openRead d = .ok i ∧ Describes d i := by
  have e := openRead_eq d h1
  have e1 := pair_extend d 3220
  have e2 := pair_toInt d 3216
  rw [if_pos h3] at e1
  rw [show (3220 : Nat) + 1 = 3221 from rfl] at e1
  rw [show (3216 : Nat) + 1 = 3217 from rfl] at e2
  rw [e1, e2, getNt_eq h1 h2 (by omega), Res.ok_bind] at e
  refine ⟨_, e, rfl, ?_, ?_, rfl, ?_⟩
  · have := Nat.div_mul_le_self (d.size - 3600) (240 + 4 * pair d 3220)
    show 3600 + (d.size - 3600) / (240 + 4 * pair d 3220) * (240 + 4 * pair d 3220) ≤ d.size
    omega
  · have := Nat.lt_div_mul_add (a := d.size - 3600) (b := 240 + 4 * pair d 3220) (by omega)
    show d.size < 3600 + ((d.size - 3600) / (240 + 4 * pair d 3220) + 1) * (240 + 4 * pair d 3220)
    rw [Nat.add_mul]
    omega
  · have ht : CharEnc.textSz = 3200 := rfl
    dsimp only
    rw [ht]

/-- **C112** (part). `assess` with a pattern returns zero and describes those files that match it and are named like SEG-Y files, in the order of
`glob`, by what their headers say.

The full claim is for all files and all arguments: `C112_short_refuted`, `C112_negative_refuted`, `C112_division_refuted`,
`C112_rest_refuted`. -/
theorem C112_assess_partial (glob : Name → List Name) (p : Name) (rest : List Name) (w : World) (hg : glob p ≠ [])
    (hw : ∀ n ∈ glob p, Ends n → ∃ d, w n = some d ∧ 3600 ≤ d.size ∧ d.size < 2 ^ 63 ∧ pair d 3220 < 32768) :
    ∃ l, assess glob (p :: rest) w = .ok (0, l) ∧
      (∃ keep : Name → Bool, (∀ n, keep n = true ↔ Ends n) ∧ l.map Prod.fst = (glob p).filter keep) ∧
      ∀ e ∈ l, ∃ d, w e.1 = some d ∧ Describes d e.2 := by
  have hk : ∀ n ∈ (glob p).filter isSegy, ∃ i d, w n = some d ∧ openRead d = .ok i ∧ Describes d i := by
    intro n hn
    obtain ⟨h1, h2⟩ := List.mem_filter.1 hn
    obtain ⟨d, hd, a, b, c⟩ := hw n h1 ((Life.C85_endings n).1 h2)
    obtain ⟨i, hi, hi2⟩ := open_describes d a b c
    exact ⟨i, d, hd, hi, hi2⟩
  have hall : ∀ n, ∃ i : Info, n ∈ (glob p).filter isSegy → ∃ d, w n = some d ∧ openRead d = .ok i ∧ Describes d i := by
    intro n
    by_cases h : n ∈ (glob p).filter isSegy
    · obtain ⟨i, hi⟩ := hk n h
      exact ⟨i, fun _ => hi⟩
    · exact ⟨⟨0, 0, 0, 0#16, []⟩, fun h' => absurd h' h⟩
  choose info hinfo using hall
  refine ⟨((glob p).filter isSegy).map fun n => (n, info n), ?_, ⟨isSegy, Life.C85_endings, ?_⟩, ?_⟩
  · unfold assess
    dsimp only
    rw [if_neg hg, collect_ok (g := fun n => (n, info n))]
    · rfl
    · intro n hn
      obtain ⟨d, h1, h2, -⟩ := hinfo n hn
      unfold describe MinMaxMain.content
      rw [h1, if_pos (show (some d).isSome = true from rfl)]
      show (do let i ← openRead d; Res.ok (n, i)) = _
      rw [h2]
      rfl
  · rw [List.map_map]
    exact List.map_id _
  · intro e he
    obtain ⟨n, hn, rfl⟩ := List.mem_map.1 he
    obtain ⟨d, h1, -, h3⟩ := hinfo n hn
    exact ⟨d, h1, h3⟩

/-- **C112**, the status: -1 without a pattern or without files that match it. -/
theorem C112_assess_status (glob : Name → List Name) (w : World) :
    assess glob [] w = .ok (-1, []) ∧ ∀ p rest, glob p = [] → assess glob (p :: rest) w = .ok (-1, []) :=
  ⟨rfl, fun p rest h => by unfold assess; dsimp only; rw [if_pos h]⟩

/-- C112 fails: of several names, as a shell makes of a pattern without quotes, only the first is looked at. -/
theorem C112_rest_refuted (glob : Name → List Name) (p : Name) (rest : List Name) (w : World) :
    assess glob (p :: rest) w = assess glob [p] w := rfl

/-- What `assess` makes of one file. -/
theorem assess_one (glob : Name → List Name) (n : Name) (rest : List Name) (w : World) (hg : glob n = [n]) (hn : Ends n) (d : Disk)
    (hd : w n = some d) : assess glob (n :: rest) w = (do let i ← openRead d; .ok (0, [(n, i)])) := by
  unfold assess
  dsimp only
  rw [hg, if_neg (by simp), List.filter_cons_of_pos ((Life.C85_endings n).2 hn), List.filter_nil]
  unfold collect collect describe MinMaxMain.content
  rw [hd, if_pos (show (some d).isSome = true from rfl)]
  show (do let l ← (do let b ← (do let i ← openRead d; Res.ok (n, i)); let bs ← Res.ok []; Res.ok (b :: bs)); Res.ok ((0 : Int), l)) = _
  cases openRead d <;> rfl

/-- C112 fails: a file too short for a header is described as one without samples and traces, and the status is zero. -/
theorem C112_short_refuted (glob : Name → List Name) (n : Name) (rest : List Name) (w : World) (hg : glob n = [n]) (hn : Ends n) (d : Disk)
    (hd : w n = some d) (hs : d.size < 3600) : assess glob (n :: rest) w = .ok (0, [(n, ⟨0, 0, 0, 5#16, []⟩)]) := by
  rw [assess_one glob n rest w hg hn d hd]
  unfold openRead
  rw [if_neg (by show ¬ 3600 ≤ d.size; omega)]
  rfl

/-- C112 fails: 32768 samples and more are printed as a number near `2^64`. -/
theorem C112_negative_refuted (glob : Name → List Name) (n : Name) (rest : List Name) (w : World) (hg : glob n = [n]) (hn : Ends n) (d : Disk)
    (hd : w n = some d) (hs : 3600 ≤ d.size) (hp : 32768 ≤ pair d 3220) (l : List (Name × Info)) (s : Int)
    (h : assess glob (n :: rest) w = .ok (s, l)) : s = 0 ∧ ∃ i, l = [(n, i)] ∧ i.ns = pair d 3220 + (2 ^ 64 - 65536) := by
  rw [assess_one glob n rest w hg hn d hd, openRead_eq d hs] at h
  obtain ⟨i, hi, h⟩ := of_bind h
  obtain ⟨nt, -, hi⟩ := of_bind hi
  rw [Res.ok.injEq, Prod.mk.injEq] at h
  rw [Res.ok.injEq] at hi
  refine ⟨h.1.symm, i, h.2.symm, ?_⟩
  have e1 := pair_extend d 3220
  rw [if_neg (by omega)] at e1
  rw [← hi]
  exact e1

/-- C112 fails: for one number of samples the program divides by zero. -/
theorem C112_division_refuted (glob : Name → List Name) (n : Name) (rest : List Name) (w : World) (hg : glob n = [n]) (hn : Ends n) (d : Disk)
    (hd : w n = some d) (hs : 3600 ≤ d.size) (hp : pair d 3220 = 65476) : assess glob (n :: rest) w = .ub := by
  rw [assess_one glob n rest w hg hn d hd, openRead_eq d hs]
  have e1 := pair_extend d 3220
  rw [if_neg (by omega), hp, show (3220 : Nat) + 1 = 3221 from rfl] at e1
  rw [e1]
  unfold getNt
  rw [if_pos (by decide +kernel)]
  rfl

/-! ### cropen -/

/-- Two texts agree up to the first null or end of one of them. -/
def Agree (s t : List Nat) : Prop :=
  ∀ k a b : Nat, (∀ j : Nat, j ≤ k → s[j]? ≠ some 0 ∧ t[j]? ≠ some 0) → s[k]? = some a → t[k]? = some b → a = b

theorem Agree.refl (s : List Nat) : Agree s s := by
  intro k a b _ h1 h2
  rw [h1, Option.some.injEq] at h2
  exact h2

theorem Agree.cons (x y : Nat) (s t : List Nat) (hx : x ≠ 0) (hy : y ≠ 0) : Agree (x :: s) (y :: t) ↔ x = y ∧ Agree s t := by
  constructor
  · intro h
    refine ⟨h 0 x y (fun j hj => ?_) rfl rfl, fun k a b hk h1 h2 => h (k + 1) a b (fun j hj => ?_) (by simpa using h1) (by simpa using h2)⟩
    · obtain rfl : j = 0 := by omega
      simp [hx, hy]
    · cases j with
      | zero => simp [hx, hy]
      | succ j => simpa using hk j (by omega)
  · rintro ⟨rfl, h⟩ k a b hk h1 h2
    cases k with
    | zero =>
      simp only [List.getElem?_cons_zero, Option.some.injEq] at h1 h2
      omega
    | succ k => exact h k a b (fun j hj => by simpa using hk (j + 1) (by omega)) (by simpa using h1) (by simpa using h2)

theorem sameText_iff (s t : List Nat) : sameText s t = true ↔ Agree s t := by
  induction s generalizing t with
  | nil => exact ⟨fun _ k a b _ h1 => by simp at h1, fun _ => by simp [sameText, cstr]⟩
  | cons x s ih =>
    cases t with
    | nil => exact ⟨fun _ k a b _ _ h1 => by simp at h1, fun _ => by simp [sameText, cstr]⟩
    | cons y t =>
      by_cases hx : x = 0
      · exact ⟨fun _ k a b h => absurd (by simp [hx]) (h 0 (by omega)).1, fun _ => by simp [sameText, cstr, hx]⟩
      · by_cases hy : y = 0
        · exact ⟨fun _ k a b h => absurd (by simp [hy]) (h 0 (by omega)).2, fun _ => by simp [sameText, cstr, hy]⟩
        · rw [Agree.cons x y s t hx hy, ← ih]
          unfold sameText cstr
          rw [List.takeWhile_cons_of_pos (by simpa using hx), List.takeWhile_cons_of_pos (by simpa using hy)]
          simp

/-- **C112** (part). Where files may be opened several times, the test returns zero exactly if file number `i` of round `i` shows, for all ten rounds, the numbers
and the interval seen before and a text that agrees. -/
theorem C112_cropen_partial (first : Disk) (disk : Nat → Nat → Disk) (a : Info) (b : Nat → Nat → Info) (ha : openRead first = .ok a)
    (hb : ∀ i j, openRead (disk i j) = .ok (b i j)) :
    ∃ s, testManyFiles first disk = .ok s ∧ (s = 0 ∨ s = -1) ∧
      (s = 0 ↔ ∀ i, i < 10 → Agree a.text (b i i).text ∧ (b i i).ns = a.ns ∧ (b i i).nt = a.nt ∧ (b i i).inc = a.inc) := by
  have h1 : ∀ i, collect (fun j => openRead (disk i j)) (List.range 1000) = .ok ((List.range 1000).map (b i)) := fun i =>
    collect_ok fun j _ => hb i j
  have h2 : collect (fun i => collect (fun j => openRead (disk i j)) (List.range 1000)) (List.range 10) =
      .ok ((List.range 10).map fun i => (List.range 1000).map (b i)) := collect_ok fun i _ => h1 i
  unfold testManyFiles
  rw [ha, Res.ok_bind, h2, Res.ok_bind]
  refine ⟨_, rfl, by split <;> simp, ?_⟩
  have key : ∀ n : Nat, ∀ f : Nat → Bool, ((List.range 10).any fun i => (List.range (n + 1)).any fun _ => f i) = true ↔ ∃ i, i < 10 ∧ f i = true := by
    intro n f
    rw [List.any_eq_true]
    constructor
    · rintro ⟨i, hi, h⟩
      obtain ⟨j, -, h⟩ := List.any_eq_true.1 h
      exact ⟨i, List.mem_range.1 hi, h⟩
    · rintro ⟨i, hi, h⟩
      exact ⟨i, List.mem_range.2 hi, List.any_eq_true.2 ⟨0, List.mem_range.2 (by omega), h⟩⟩
  have hz : ∀ c : Bool, ((if c = true then (-1 : Int) else 0) = 0) ↔ ¬ c = true := by intro c; cases c <;> decide
  rw [hz, key 999]
  have hget : ∀ i, i < 10 → ((List.range 10).map fun i => (List.range 1000).map (b i))[i]? = some ((List.range 1000).map (b i)) := by
    intro i hi
    rw [List.getElem?_map, List.getElem?_range hi]
    rfl
  have hget2 : ∀ i, i < 10 → ((List.range 1000).map (b i))[i]? = some (b i i) := by
    intro i hi
    rw [List.getElem?_map, List.getElem?_range (by omega)]
    rfl
  have hs : ∀ i, same a (b i i) = true ↔ Agree a.text (b i i).text ∧ (b i i).ns = a.ns ∧ (b i i).nt = a.nt ∧ (b i i).inc = a.inc := by
    intro i
    unfold same
    rw [Bool.and_eq_true, Bool.and_eq_true, Bool.and_eq_true, sameText_iff, decide_eq_true_iff, decide_eq_true_iff, decide_eq_true_iff]
    constructor
    · rintro ⟨⟨⟨h1, h2⟩, h3⟩, h4⟩; exact ⟨h1, h2.symm, h3.symm, h4.symm⟩
    · rintro ⟨h1, h2, h3, h4⟩; exact ⟨⟨⟨h1, h2.symm⟩, h3.symm⟩, h4.symm⟩
  constructor
  · intro h i hi
    rw [← hs i]
    by_contra hc
    refine h ⟨i, hi, ?_⟩
    rw [hget i hi]
    dsimp only
    rw [hget2 i hi]
    simpa using hc
  · rintro h ⟨i, hi, hbad⟩
    rw [hget i hi] at hbad
    dsimp only at hbad
    rw [hget2 i hi] at hbad
    simp only [Bool.not_eq_true'] at hbad
    rw [(hs i).2 (h i hi)] at hbad
    cases hbad

/-- C112 fails: of the thousand files of a round only one is compared. Nothing the others show changes the status. -/
theorem C112_once_refuted (first : Disk) (disk disk' : Nat → Nat → Disk) (a : Info) (b b' : Nat → Nat → Info) (ha : openRead first = .ok a)
    (hb : ∀ i j, openRead (disk i j) = .ok (b i j)) (hb' : ∀ i j, openRead (disk' i j) = .ok (b' i j))
    (h : ∀ i, i < 10 → b' i i = b i i) : testManyFiles first disk' = testManyFiles first disk := by
  obtain ⟨s, e, hs, h0⟩ := C112_cropen_partial first disk a b ha hb
  obtain ⟨s', e', hs', h0'⟩ := C112_cropen_partial first disk' a b' ha hb'
  rw [e, e', Res.ok.injEq]
  have : s' = 0 ↔ s = 0 := by
    rw [h0, h0']
    exact forall_congr' fun i => forall_congr' fun hi => by rw [h i hi]
  rcases hs with rfl | rfl <;> rcases hs' with rfl | rfl <;> simp_all

/-- The arguments of `cropen`: other words and `-i` with a name, the last of which counts. -/
theorem cropen_name (lax : Bool) (l : List Given) (hl : ∀ g ∈ l, g.Fits cropenSpec) (c : Char) (n : Name)
    (hc : (l.filterMap Given.means).getLast? = some (c, n)) (first : World) (w : Nat → Nat → World) :
    cropen lax (l.flatMap Given.words) first w =
      if (first n).isSome ∧ ¬ lax then .ub else testManyFiles (MinMaxMain.content first n) (fun i j => MinMaxMain.content (w i j) n) := by
  unfold cropen
  have e := getopt_append cropenSpec (by decide) l hl []
  rw [List.append_nil] at e
  have e0 : getopt cropenSpec [] = [] := rfl
  rw [e0, List.append_nil] at e
  rw [e]
  dsimp only
  rw [if_neg, hc]
  rw [List.any_eq_true]
  rintro ⟨x, hx, hne⟩
  obtain ⟨g, hg, hm⟩ := List.mem_filterMap.1 hx
  have hf := hl g hg
  have hi : ∀ c b, cropenSpec c = some b → c = 'i' ∧ b = true := by
    intro c b h
    unfold cropenSpec at h
    split at h
    · rename_i hc
      rw [Option.some.injEq] at h
      exact ⟨hc, h.symm⟩
    · cases h
  cases g with
  | flag c =>
    have := (hi c false hf).2
    cases this
  | apart c v =>
    have := (hi c true hf).1
    cases hm
    simp [this] at hne
  | joined c v =>
    have := (hi c true hf.1).1
    cases hm
    simp [this] at hne
  | word v => cases hm

/-- C112 fails: what `cropen` is there to do, to open a file that is open already, is what it promises the MPI library not to do; for every file that is there
it is undefined. -/
theorem C112_unique_refuted (l : List Given) (hl : ∀ g ∈ l, g.Fits (alphabet ['i'] [])) (c : Char) (n : Name)
    (hc : (l.filterMap Given.means).getLast? = some (c, n)) (first : World) (w : Nat → Nat → World) (hn : (first n).isSome) :
    cropen false (l.flatMap Given.words) first w = .ub := by
  rw [← cropenSpec_alphabet] at hl
  rw [cropen_name false l hl c n hc, if_pos ⟨hn, by simp⟩]

/-- C112 fails: a file that is not there passes the test. -/
theorem C112_missing_refuted (lax : Bool) (l : List Given) (hl : ∀ g ∈ l, g.Fits (alphabet ['i'] [])) (c : Char) (n : Name)
    (hc : (l.filterMap Given.means).getLast? = some (c, n)) (first : World) (w : Nat → Nat → World) (hn : first n = none)
    (hw : ∀ i j, w i j n = none) : cropen lax (l.flatMap Given.words) first w = .ok 0 := by
  rw [← cropenSpec_alphabet] at hl
  rw [cropen_name lax l hl c n hc, if_neg (by simp [hn])]
  have e : openRead ⟨0, fun _ => 0#8⟩ = .ok ⟨0, 0, 0, 5#16, []⟩ := by
    unfold openRead
    rw [if_neg (by show ¬ 3600 ≤ 0; omega)]
  have h1 : MinMaxMain.content first n = ⟨0, fun _ => 0#8⟩ := by unfold MinMaxMain.content; rw [hn]; rfl
  have h2 : (fun i j => MinMaxMain.content (w i j) n) = fun _ _ => ⟨0, fun _ => 0#8⟩ := by
    funext i j
    unfold MinMaxMain.content
    rw [hw]
    rfl
  rw [h1, h2]
  obtain ⟨s, es, -, h0⟩ := C112_cropen_partial _ (fun _ _ => ⟨0, fun _ => 0#8⟩) _ (fun _ _ => _) e (fun _ _ => e)
  rw [es, h0.2 fun i _ => ⟨Agree.refl _, rfl, rfl, rfl⟩]

/-- **C112**, the status of `cropen` for options it does not know or without a value, after any that it does. -/
theorem C112_cropen_status (lax : Bool) (l : List Given) (hl : ∀ g ∈ l, g.Fits (alphabet ['i'] [])) (first : World) (w : Nat → Nat → World) :
    cropen lax (l.flatMap Given.words ++ [['-', 'i']]) first w = .ok (-1) ∧
    ∀ c, c ≠ 'i' → c ≠ '-' → ∀ rest, cropen lax (l.flatMap Given.words ++ ['-', c] :: rest) first w = .ok (-1) := by
  rw [← cropenSpec_alphabet] at hl
  constructor
  · unfold cropen
    rw [getopt_append cropenSpec (by decide) l hl]
    have : getopt cropenSpec [['-', 'i']] = [('?', [])] := by decide
    rw [this]
    dsimp only
    rw [if_pos]
    rw [List.any_append]
    simp
  · intro c h1 h2 rest
    unfold cropen
    rw [getopt_append cropenSpec (by decide) l hl]
    have : getopt cropenSpec (['-', c] :: rest) = ('?', []) :: getopt cropenSpec rest := by
      conv_lhs => unfold getopt
      rw [if_neg (by simpa using h2)]
      simp [letters, cropenSpec, h1]
    rw [this]
    dsimp only
    rw [if_pos]
    rw [List.any_append]
    simp

/-! ### Examples -/

/-- Two traces of five samples, or what else the two bytes say. -/
def exFile (a b : BitVec 8) : Disk :=
  ⟨3600 + 2 * 260, fun i => if i = 3220 then a else if i = 3221 then b else if i = 3216 then 15#8 else if i = 3217 then 160#8 else 65#8⟩

def exName : Name := "line.SEGY".toList

/-- A disk with one such file. -/
def exWorld (a b : BitVec 8) : World := fun n => if n = exName then some (exFile a b) else none

theorem exEnds : Ends exName := ⟨"line.".toList, "SEGY".toList, by decide, Or.inl (by decide)⟩

/-- The file has five samples, two traces and an interval of four milliseconds; the other arguments do not matter. -/
example : ∃ i, assess (fun p => [p]) [exName, "other.segy".toList] (exWorld 0#8 5#8) = .ok (0, [(exName, i)]) ∧ i.ns = 5 ∧ i.nt = 2 := by
  have hd : exWorld 0#8 5#8 exName = some (exFile 0#8 5#8) := if_pos rfl
  have h5 : pair (exFile 0#8 5#8) 3220 = 5 := by decide +kernel
  obtain ⟨l, h1, ⟨keep, hk, h2⟩, h3⟩ := C112_assess_partial (fun p => [p]) exName ["other.segy".toList] (exWorld 0#8 5#8) (by simp) (by
    intro n hn _
    rw [List.mem_singleton.1 hn]
    refine ⟨_, hd, ?_, ?_, ?_⟩
    · show 3600 ≤ 3600 + 2 * 260
      omega
    · show 3600 + 2 * 260 < 2 ^ 63
      omega
    · rw [h5]
      omega)
  rw [List.filter_cons_of_pos ((hk _).2 exEnds), List.filter_nil] at h2
  match l, h2, h3, h1 with
  | [(n, i)], h2, h3, h1 =>
    obtain rfl : n = exName := by simpa using h2
    obtain ⟨d, e, hd1, hd2, hd3, -⟩ := h3 _ (List.mem_singleton_self _)
    dsimp only at e hd1 hd2 hd3
    rw [hd, Option.some.injEq] at e
    rw [← e] at hd1 hd2 hd3
    rw [h5] at hd1
    have hz : (exFile 0#8 5#8).size = 4120 := rfl
    rw [hd1, hz] at hd2 hd3
    exact ⟨i, h1, hd1, by omega⟩

/-- Negative numbers of samples: `C112_negative_refuted`, `C112_division_refuted`. -/
example : 32768 ≤ pair (exFile 255#8 196#8) 3220 ∧ assess (fun p => [p]) [exName] (exWorld 255#8 196#8) = .ub :=
  ⟨by decide +kernel, C112_division_refuted _ _ _ _ rfl exEnds _ (if_pos rfl) (by show 3600 ≤ 3600 + 2 * 260; omega) (by decide +kernel)⟩

/-- The arguments of the theorems on `cropen`, with a name given twice. -/
example : let l := [Given.apart 'i' "a.segy".toList, .word "b".toList, .joined 'i' exName]
    (∀ g ∈ l, g.Fits (alphabet ['i'] [])) ∧ (l.filterMap Given.means).getLast? = some ('i', exName) ∧ ((exWorld 0#8 5#8) exName).isSome := by
  refine ⟨?_, by decide, by decide⟩
  intro g hg
  simp only [List.mem_cons, List.not_mem_nil, or_false] at hg
  rcases hg with rfl | rfl | rfl
  · show alphabet ['i'] [] 'i' = some true
    decide
  · show ("b".toList).head? ≠ some '-'
    decide
  · exact ⟨by decide, by decide⟩

/-- A file that stays as it is passes, if it can be opened at all. -/
example (d : Disk) (a : Info) (ha : openRead d = .ok a) : testManyFiles d (fun _ _ => d) = .ok 0 := by
  obtain ⟨s, e, -, h0⟩ := C112_cropen_partial d (fun _ _ => d) a (fun _ _ => a) ha (fun _ _ => ha)
  rw [e, h0.2 fun i _ => ⟨Agree.refl _, rfl, rfl, rfl⟩]

end Verif.Assess
