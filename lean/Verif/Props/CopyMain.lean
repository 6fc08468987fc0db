import Verif.Util.CopyMain
import Verif.Props.ExampleMain

/-!
# C115: the example that copies a file, from the arguments and files to the files

The claim: `creadwrite`, with the names of an input and an output and a limit for the memory in any order, the last of each counting, copies
the input to the output and changes no other file; `-p` and `-t` ask for changes; where the arguments make no sense, or there is no
input, the program ends without touching a file.
-/

namespace Verif.CopyMain
open Verif.Endian Verif.Files Verif.Params Verif.Options Verif.SortMain Verif.Flow Verif.Extremes Verif.FP Verif.Scalar
open Verif.ConcatTool (World)
open Verif.Life (Name)
open Verif.ExampleMain (Last nameOf nameOf_none nameOf_last)
open Verif.CCopy (Num options Conf Carried cstr)

theorem scan_of {s : Name} {n : Nat} (h : stoul s = .ok n) : scanSize s = some n := by
  unfold stoul at h
  unfold scanSize
  dsimp only at h ⊢
  generalize List.takeWhile _ _ = ds at h ⊢
  generalize decide ((List.dropWhile isSpace s).head? = some '-') = neg at h ⊢
  by_cases h1 : ds = []
  · rw [if_pos h1] at h
    cases h
  · rw [if_neg h1] at h ⊢
    by_cases h2 : 2 ^ 64 ≤ Nat.ofDigitChars 10 ds 0
    · rw [if_pos h2] at h
      cases h
    · rw [if_neg h2] at h ⊢
      cases neg
      · rw [if_neg (by simp)] at h ⊢
        exact congrArg some (Res.ok.inj h)
      · rw [if_pos rfl] at h ⊢
        exact congrArg some (Res.ok.inj h)

theorem nameOf_cons (c : Char) (y : Char × Name) (l : List (Char × Name)) :
    nameOf c (y :: l) = (nameOf c l).or (if y.1 = c then some y.2 else none) := by
  unfold nameOf
  by_cases h : y.1 = c
  · rw [List.filter_cons_of_pos (by simpa using h), List.map_cons, if_pos h, List.getLast?_cons]
    cases ((l.filter fun a => a.1 = c).map Prod.snd).getLast? <;> rfl
  · rw [List.filter_cons_of_neg (by simpa using h), if_neg h, Option.or_none]

/-- One option as the program sees it. -/
def one (a : Char × Name) : Char × Option String :=
  (a.1, if copySpec a.1 = some true then some (String.ofList a.2) else none)

/-- The options with values, in front of others. -/
theorem options_known (x : List (Char × Name)) (r : List (Char × Option String))
    (hx : ∀ a ∈ x, copySpec a.1 = some true ∧ (a.1 = 'm' → ∃ n, scanSize a.2 = some n)) (c : Conf) :
    options (fun s => scanSize s.toList) c (x.map one ++ r) =
      options (fun s => scanSize s.toList) ⟨((nameOf 'i' x).map String.ofList).or c.iname, ((nameOf 'o' x).map String.ofList).or c.oname,
        ((nameOf 'm' x).bind scanSize).getD c.memmax, c.mods⟩ r := by
  induction x generalizing c with
  | nil => rfl
  | cons a x ih =>
    obtain ⟨ha, hm⟩ := hx a (by simp)
    have ih := ih fun b hb => hx b (by simp [hb])
    obtain ⟨k, v⟩ := a
    have hone : one (k, v) = (k, some (String.ofList v)) := by unfold one; rw [if_pos ha]
    rw [List.map_cons, List.cons_append, hone]
    rw [show options (fun s => scanSize s.toList) c ((k, some (String.ofList v)) :: (x.map one ++ r)) =
      (if k = 'i' then options (fun s => scanSize s.toList) { c with iname := some (String.ofList v) } (x.map one ++ r)
       else if k = 'o' then options (fun s => scanSize s.toList) { c with oname := some (String.ofList v) } (x.map one ++ r)
       else if k = 'm' then
         match scanSize (String.ofList v).toList with
         | some n => options (fun s => scanSize s.toList) { c with memmax := n } (x.map one ++ r)
         | none => .ok none
       else if k = 'p' then options (fun s => scanSize s.toList) { c with mods := { c.mods with prm := true } } (x.map one ++ r)
       else if k = 't' then options (fun s => scanSize s.toList) { c with mods := { c.mods with trc := true } } (x.map one ++ r)
       else options (fun s => scanSize s.toList) c (x.map one ++ r)) from rfl]
    have hk : k = 'i' ∨ k = 'o' ∨ k = 'm' := by
      by_contra hc
      have ha : copySpec k = some true := ha
      unfold copySpec at ha
      rw [if_neg hc] at ha
      split at ha <;> cases ha
    simp only [nameOf_cons]
    rcases hk with rfl | rfl | rfl
    · rw [if_pos rfl, ih]
      congr 1
      simp only [Conf.mk.injEq]
      refine ⟨?_, ?_, ?_, trivial⟩
      · cases nameOf 'i' x <;> rfl
      · cases nameOf 'o' x <;> rfl
      · cases nameOf 'm' x <;> rfl
    · rw [if_neg (by decide), if_pos rfl, ih]
      congr 1
      simp only [Conf.mk.injEq]
      refine ⟨?_, ?_, ?_, trivial⟩
      · cases nameOf 'i' x <;> rfl
      · cases nameOf 'o' x <;> rfl
      · cases nameOf 'm' x <;> rfl
    · obtain ⟨n, hn⟩ := hm rfl
      rw [if_neg (by decide), if_neg (by decide), if_pos rfl, String.toList_ofList, hn]
      dsimp only
      rw [ih]
      congr 1
      simp only [Conf.mk.injEq]
      refine ⟨?_, ?_, ?_, trivial⟩
      · cases nameOf 'i' x <;> rfl
      · cases nameOf 'o' x <;> rfl
      · cases hu : nameOf 'm' x with
        | none => show n = ((Option.or none (some v)).bind scanSize).getD c.memmax; rw [Option.none_or, Option.bind_some, hn]; rfl
        | some u =>
          have hu : ∃ k, scanSize u = some k := by
            have h1 := List.mem_of_getLast? hu
            obtain ⟨b, hb, rfl⟩ := List.mem_map.1 h1
            obtain ⟨h2, h3⟩ := List.mem_filter.1 hb
            exact (hx b (by simp [h2])).2 (by simpa using h3)
          obtain ⟨k, hk⟩ := hu
          simp [hk]

theorem copySpec_alphabet : copySpec = alphabet ['i', 'o', 'm'] ['p', 't'] := by
  funext c
  simp [copySpec, alphabet]

/-- The arguments are names and memory limits in decimal. -/
structure Plain (l : List Given) : Prop where
  fits : ∀ g ∈ l, g.Fits (alphabet ['i', 'o', 'm'] ['p', 't'])
  values : ∀ g ∈ l, ∀ c, g ≠ .flag c
  limits : ∀ g ∈ l, ∀ v, g.means = some ('m', v) → ∃ n < 2 ^ 64, v = decimal n

theorem Plain.fit {l : List Given} (h : Plain l) : ∀ g ∈ l, g.Fits copySpec := by
  rw [copySpec_alphabet]
  exact h.fits

theorem Plain.known {l : List Given} (h : Plain l) :
    ∀ a ∈ l.filterMap Given.means, copySpec a.1 = some true ∧ (a.1 = 'm' → ∃ n, scanSize a.2 = some n) := by
  intro x hx
  obtain ⟨g, hg, hm⟩ := List.mem_filterMap.1 hx
  have hf := h.fit g hg
  refine ⟨?_, fun hc => ?_⟩
  · cases g with
    | flag c => exact absurd rfl (h.values _ hg c)
    | apart c v =>
      obtain rfl : (c, v) = x := by simpa [Given.means] using hm
      exact hf
    | joined c v =>
      obtain rfl : (c, v) = x := by simpa [Given.means] using hm
      exact hf.1
    | word v => simp [Given.means] at hm
  · obtain ⟨n, hn, hv⟩ := h.limits g hg x.2 (by rw [hm, ← hc])
    exact ⟨n, by rw [hv]; exact scan_of (stoul_decimal hn)⟩

/-- The memory limit that counts, 2 GiB if there is none. -/
def Limit (l : List Given) (m : Nat) : Prop :=
  (m < 2 ^ 64 ∧ Last l 'm' (decimal m)) ∨ ((∀ g ∈ l, ∀ v, g.means ≠ some ('m', v)) ∧ m = 2 ^ 31)

theorem options_run {l : List Given} (h : Plain l) {m : Nat} (hm : Limit l m) :
    options (fun s => scanSize s.toList) .start (seen (l.flatMap Given.words)) =
      .ok (some ⟨(nameOf 'i' (l.filterMap Given.means)).map String.ofList, (nameOf 'o' (l.filterMap Given.means)).map String.ofList, m,
        ⟨false, false⟩⟩) := by
  have e : seen (l.flatMap Given.words) = (l.filterMap Given.means).map one ++ [] := by
    unfold seen
    rw [C101_options copySpec (by decide) l h.fit, List.append_nil]
    rfl
  rw [e, options_known _ _ h.known]
  have hmem : ((nameOf 'm' (l.filterMap Given.means)).bind scanSize).getD Conf.start.memmax = m := by
    rcases hm with ⟨hlt, hm⟩ | ⟨hm, rfl⟩
    · rw [nameOf_last hm, Option.bind_some, scan_of (stoul_decimal hlt)]
      rfl
    · rw [nameOf_none hm]
      rfl
  rw [hmem]
  show Res.ok (some _) = _
  congr 3 <;> exact Option.or_none

/-- The program on two names. -/
theorem copy_run {F : Type} (N : Num F) (junk : Nat → Byte) (sched : List (Nat × Nat) → List (Nat × Nat)) (P : Nat) {l : List Given}
    (h : Plain l) {a b : Name} (ha : Last l 'i' a) (hb : Last l 'o' b) {m : Nat} (hm : Limit l m) (w : World)
    {d : Disk} (hw : w a = some d) {i : Info} (hopen : openRead d = .ok i) :
    copyMain N junk sched P (l.flatMap Given.words) w =
      (if b = a then .ub
      else do
        let out ← CCopy.readWriteFile N junk sched P m ⟨false, false⟩ d ((w b).getD ⟨0, fun _ => 0#8⟩)
        .ok (0, Function.update w b (some out))) := by
  have hc : MinMaxMain.content w a = d := by unfold MinMaxMain.content; rw [hw]; rfl
  unfold copyMain
  rw [options_run h hm, Res.ok_bind, nameOf_last ha, nameOf_last hb]
  dsimp only [Option.map_some]
  rw [String.toList_ofList, String.toList_ofList, hc, hopen, Res.ok_bind, hw, if_neg (by simp)]
  rfl

/-- **C115**. Names and limits in any order, with other words between them, the last of each kind counting; any file that opens with
samples in the IEEE format and a positive interval, a limit that allows a trace, any number of processes and any order of their calls, if all need
the same number of rounds: the status is 0; the output opens with the numbers of the input and has of every trace the samples and
the items of the default rule; no other file is changed. Missing: as in C80 (`C80_rounds_refuted`, `C80_interval_refuted`,
`C80_header_refuted`), `-p` and `-t` (`C115_flag_refuted`), smaller limits (`C115_small_refuted`). -/
theorem C115_copy_partial (N : Num ℚ) (hN : N.ops = dbl) (hcv : ∀ v, N.toT.toT v = v) (junk : Nat → Byte)
    (sched : List (Nat × Nat) → List (Nat × Nat)) (hs : ∀ l, (sched l).Perm l) (P : Nat) (hP : 0 < P)
    (l : List Given) (h : Plain l) (a b : Name) (ha : Last l 'i' a) (hb : Last l 'o' b) (hab : a ≠ b) (m : Nat) (hm : Limit l m)
    (w : World) (d : Disk) (hw : w a = some d) (i : Info) (hopen : openRead d = .ok i) (hd : d.size < 2 ^ 63) (h0 : 0 < i.ns)
    (h1 : i.ns ≤ 32767) (hinc : 0 < i.inc) (hfmt : i.format ≠ 1#16) (hmem : max (4 * i.ns) 240 ≤ m)
    (hr : i.nt % P = 0 ∨ ¬ m / max (4 * i.ns) 240 ∣ i.nt / P) :
    ∃ w' out, copyMain N junk sched P (l.flatMap Given.words) w = .ok (0, w') ∧ w' b = some out ∧ (∀ n, n ≠ b → w' n = w n) ∧
      openRead out = .ok ⟨i.ns, i.nt, i.inc, 5#16, CharEnc.readText (shown (cstr i.text))⟩ ∧
      ∀ k, k < i.nt → Carried i.ns d k out := by
  obtain ⟨o, e1, e2, -, e4⟩ := CCopy.C80_copy_partial N hN hcv junk sched hs P hP m d i hopen hd h0 h1 hinc hfmt hmem hr
    ((w b).getD ⟨0, fun _ => 0#8⟩)
  refine ⟨_, o, ?_, Function.update_self .., fun n hn => Function.update_of_ne hn _ _, e2, e4⟩
  rw [copy_run N junk sched P h ha hb hm w hw hopen, if_neg (fun e => hab e.symm), e1, Res.ok_bind]

/-- **C115**: without one of the names, or without the input, the program ends before anything is written. -/
theorem C115_missing {F : Type} (N : Num F) (junk : Nat → Byte) (sched : List (Nat × Nat) → List (Nat × Nat)) (P : Nat)
    (l : List Given) (h : Plain l) (m : Nat) (hm : Limit l m) (w : World)
    (hl : (∀ g ∈ l, ∀ v, g.means ≠ some ('i', v)) ∨ (∀ g ∈ l, ∀ v, g.means ≠ some ('o', v)) ∨ ∃ a, Last l 'i' a ∧ w a = none) :
    copyMain N junk sched P (l.flatMap Given.words) w = .abort := by
  unfold copyMain
  rw [options_run h hm, Res.ok_bind]
  rcases hl with hl | hl | ⟨a, ha, hw⟩
  · rw [nameOf_none hl]
    rfl
  · rw [nameOf_none hl]
    cases nameOf 'i' (l.filterMap Given.means) <;> rfl
  · rw [nameOf_last ha]
    cases nameOf 'o' (l.filterMap Given.means) with
    | none => rfl
    | some b =>
      dsimp only [Option.map_some]
      have ho : openRead (MinMaxMain.content w a) = .ok ⟨0, 0, 0, 5#16, []⟩ := by
        rw [show MinMaxMain.content w a = ⟨0, fun _ => 0#8⟩ by unfold MinMaxMain.content; rw [hw]; rfl]
        unfold openRead
        rw [if_neg (by show ¬ 3600 ≤ 0; omega)]
      rw [String.toList_ofList, ho, Res.ok_bind, hw]
      rfl

/-- **C115**: after a limit that does not begin with a number the program ends with the status -1 and has not touched a file, whatever
follows. -/
theorem C115_limit {F : Type} (N : Num F) (junk : Nat → Byte) (sched : List (Nat × Nat) → List (Nat × Nat)) (P : Nat)
    (l : List Given) (h : Plain l) (v : Name) (hv : ∀ c ∈ v.head?, ¬ isSpace c ∧ c ≠ '-' ∧ c ≠ '+' ∧ ¬ c.isDigit) (r : List Name) (w : World) :
    copyMain N junk sched P (l.flatMap Given.words ++ ['-', 'm'] :: v :: r) w = .ok (-1, w) := by
  have hsc : scanSize v = none := by
    cases v with
    | nil => rfl
    | cons c v =>
      obtain ⟨h1, h2, h3, h4⟩ := hv c rfl
      unfold scanSize
      dsimp only
      rw [List.dropWhile_cons_of_neg h1, show (if (c :: v).head? = some '-' ∨ (c :: v).head? = some '+' then (c :: v).tail
        else c :: v) = c :: v from if_neg (by simp [h2, h3]), List.takeWhile_cons_of_neg h4, if_pos rfl]
  have hg : getopt copySpec (['-', 'm'] :: v :: r) = ('m', v) :: getopt copySpec r := by
    conv_lhs => unfold getopt
    rfl
  have e : seen (l.flatMap Given.words ++ ['-', 'm'] :: v :: r) =
      (l.filterMap Given.means).map one ++ ('m', some (String.ofList v)) :: seen r := by
    unfold seen
    rw [getopt_append copySpec (by decide) l h.fit, hg, List.map_append, List.map_cons]
    rfl
  unfold copyMain
  rw [e, options_known _ _ h.known]
  unfold CCopy.options
  rw [if_neg (by decide), if_neg (by decide), if_pos rfl, String.toList_ofList, hsc]
  rfl

/-- C115 fails: the options that ask for changes, and those that are unknown, are undefined behaviour. -/
theorem C115_flag_refuted {F : Type} (N : Num F) (junk : Nat → Byte) (sched : List (Nat × Nat) → List (Nat × Nat)) (P : Nat)
    (l : List Given) (h : Plain l) (z : Char) (hz : z ≠ 'i' ∧ z ≠ 'o' ∧ z ≠ 'm' ∧ z ≠ '-') (r : List Name) (w : World) :
    copyMain N junk sched P (l.flatMap Given.words ++ ['-', z] :: r) w = .ub := by
  obtain ⟨z1, z2, z3, z4⟩ := hz
  obtain ⟨y, hy, hg⟩ : ∃ y, copySpec y ≠ some true ∧ getopt copySpec (['-', z] :: r) = (y, []) :: getopt copySpec r := by
    have hs : copySpec z = some false ∨ copySpec z = none := by
      unfold copySpec
      rw [if_neg (by simp [z1, z2, z3])]
      split <;> simp
    rcases hs with hs | hs
    · refine ⟨z, by rw [hs]; decide, ?_⟩
      conv_lhs => unfold getopt
      rw [if_neg (by simpa using z4)]
      simp [letters, hs]
    · refine ⟨'?', by decide, ?_⟩
      conv_lhs => unfold getopt
      rw [if_neg (by simpa using z4)]
      simp [letters, hs]
  have e : seen (l.flatMap Given.words ++ ['-', z] :: r) = (l.filterMap Given.means).map one ++ (y, none) :: seen r := by
    unfold seen
    rw [getopt_append copySpec (by decide) l h.fit, hg, List.map_append, List.map_cons]
    dsimp only
    rw [if_neg hy]
    rfl
  unfold copyMain
  rw [e, options_known _ _ h.known]
  rfl

/-- C115 fails: so is a limit below the size of a trace or of a header. -/
theorem C115_small_refuted {F : Type} (N : Num F) (junk : Nat → Byte) (sched : List (Nat × Nat) → List (Nat × Nat)) (P : Nat) (hP : 0 < P)
    (l : List Given) (h : Plain l) (a b : Name) (ha : Last l 'i' a) (hb : Last l 'o' b) (m : Nat) (hm : Limit l m)
    (w : World) (d : Disk) (hw : w a = some d) (i : Info) (hopen : openRead d = .ok i) (hd : d.size < 2 ^ 63) (h0 : 0 < i.ns)
    (h1 : i.ns ≤ 32767) (hinc : 0 < i.inc) (hmem : m < max (4 * i.ns) 240) :
    copyMain N junk sched P (l.flatMap Given.words) w = .ub := by
  rw [copy_run N junk sched P h ha hb hm w hw hopen]
  split
  · rfl
  · rw [CCopy.C80_memory_refuted N junk sched P hP m ⟨false, false⟩ d i hopen hd h0 h1 hinc hmem]
    rfl

/-- C115 fails: so is the same name for the input and the output. -/
theorem C115_same_refuted {F : Type} (N : Num F) (junk : Nat → Byte) (sched : List (Nat × Nat) → List (Nat × Nat)) (P : Nat)
    (l : List Given) (h : Plain l) (a : Name) (ha : Last l 'i' a) (hb : Last l 'o' a) (m : Nat) (hm : Limit l m)
    (w : World) (d : Disk) (hw : w a = some d) (i : Info) (hopen : openRead d = .ok i) :
    copyMain N junk sched P (l.flatMap Given.words) w = .ub := by
  rw [copy_run N junk sched P h ha hb hm w hw hopen, if_pos rfl]

/-! ### Cases -/

/-- `-m 1 -o x -i a rest -oz -m n`. -/
def exArgs (a : Name) (n : Nat) : List Given :=
  [.apart 'm' (decimal 1), .apart 'o' ['x'], .apart 'i' a, .word ['r'], .joined 'o' ['z'], .apart 'm' (decimal n)]

theorem exArgs_plain (a : Name) {n : Nat} (hn : n < 2 ^ 64) : Plain (exArgs a n) := by
  refine ⟨by simp [exArgs, Given.Fits, alphabet], by simp [exArgs], ?_⟩
  intro g hg v hv
  simp only [exArgs, List.mem_cons, List.not_mem_nil, or_false] at hg
  rcases hg with rfl | rfl | rfl | rfl | rfl | rfl <;> simp [Given.means] at hv
  · exact ⟨1, by omega, hv.symm⟩
  · exact ⟨n, hn, hv.symm⟩

theorem exArgs_in (a : Name) (n : Nat) : Last (exArgs a n) 'i' a :=
  ⟨[.apart 'm' (decimal 1), .apart 'o' ['x']], .apart 'i' a, [.word ['r'], .joined 'o' ['z'], .apart 'm' (decimal n)], rfl, rfl,
    by simp [Given.means]⟩

theorem exArgs_out (a : Name) (n : Nat) : Last (exArgs a n) 'o' ['z'] :=
  ⟨[.apart 'm' (decimal 1), .apart 'o' ['x'], .apart 'i' a, .word ['r']], .joined 'o' ['z'], [.apart 'm' (decimal n)], rfl, rfl,
    by simp [Given.means]⟩

theorem exArgs_limit (a : Name) {n : Nat} (hn : n < 2 ^ 64) : Limit (exArgs a n) n :=
  Or.inl ⟨hn, [.apart 'm' (decimal 1), .apart 'o' ['x'], .apart 'i' a, .word ['r'], .joined 'o' ['z']], .apart 'm' (decimal n), [], rfl, rfl,
    by simp⟩

/-- The files. -/
def exDisk : World := fun n => if n = ['a'] then some (CCopy.exCopy 7 6#8 0x20) else none

/-- The hypotheses of `C115_copy_partial`: seven traces on two processes, two a call. -/
example : ∃ w' out, copyMain CCopy.exNum (fun _ => 9#8) List.reverse 2 ((exArgs ['a'] 500).flatMap Given.words) exDisk = .ok (0, w') ∧
    w' ['z'] = some out ∧ w' ['x'] = none ∧ be32 out 2 6 37 = 0x06060606#32 := by
  obtain ⟨w', out, e1, e2, e3, -, e5⟩ := C115_copy_partial CCopy.exNum rfl (fun _ => rfl) (fun _ => 9#8) List.reverse
    (fun l => List.reverse_perm l) 2 (by omega) (exArgs ['a'] 500) (exArgs_plain _ (by omega)) ['a'] ['z'] (exArgs_in _ _) (exArgs_out _ _)
    (by decide) 500 (exArgs_limit _ (by omega)) exDisk (CCopy.exCopy 7 6#8 0x20) rfl _
    (CCopy.exCopy_open (n := 7) 6#8 (w := 0x20) (by omega) (by decide)) (by decide) (by simp) (by simp) exInc_pos (by decide) (by simp)
    (Or.inr (by decide))
  refine ⟨w', out, e1, e2, (e3 _ (by decide)).trans rfl, ?_⟩
  rw [(e5 6 (by simp)).numbers 37 (by simp)]; decide

/-- The hypotheses of `C115_missing`, `C115_limit` and `C115_flag_refuted`. -/
example : copyMain CCopy.exNum (fun _ => 9#8) id 2 ((exArgs ['c'] 500).flatMap Given.words) exDisk = .abort ∧
    copyMain CCopy.exNum (fun _ => 9#8) id 2 [['-', 'm'], ['x', '1']] exDisk = .ok (-1, exDisk) ∧
    copyMain CCopy.exNum (fun _ => 9#8) id 2 ((exArgs ['a'] 500).flatMap Given.words ++ [['-', 'p']]) exDisk = .ub :=
  ⟨C115_missing _ _ _ 2 _ (exArgs_plain _ (by omega)) 500 (exArgs_limit _ (by omega)) exDisk (Or.inr (Or.inr ⟨_, exArgs_in _ _, rfl⟩)),
    C115_limit _ _ _ 2 [] ⟨by simp, by simp, by simp⟩ ['x', '1'] (by decide) [] exDisk,
    C115_flag_refuted _ _ _ 2 _ (exArgs_plain _ (by omega)) 'p' (by decide) [] exDisk⟩

/-- The hypotheses of `C115_small_refuted`. -/
example : copyMain CCopy.exNum (fun _ => 9#8) id 2 ((exArgs ['a'] 100).flatMap Given.words) exDisk = .ub :=
  C115_small_refuted _ _ _ 2 (by omega) _ (exArgs_plain _ (by omega)) ['a'] ['z'] (exArgs_in _ _) (exArgs_out _ _) 100
    (exArgs_limit _ (by omega)) exDisk (CCopy.exCopy 7 6#8 0x20) rfl _
    (CCopy.exCopy_open (n := 7) 6#8 (w := 0x20) (by omega) (by decide)) (by decide) (by simp) (by simp) exInc_pos (by simp)

/-- The hypotheses of `C115_same_refuted`, without a limit. -/
example : copyMain CCopy.exNum (fun _ => 9#8) id 2 [['-', 'i'], ['a'], ['-', 'o'], ['a']] exDisk = .ub :=
  C115_same_refuted _ _ _ 2 [.apart 'i' ['a'], .apart 'o' ['a']]
    ⟨by simp [Given.Fits, alphabet], by simp, by simp [Given.means]⟩ ['a']
    ⟨[], _, [.apart 'o' ['a']], rfl, rfl, by simp [Given.means]⟩ ⟨[.apart 'i' ['a']], _, [], rfl, rfl, by simp⟩ (2 ^ 31)
    (Or.inr ⟨by simp [Given.means], rfl⟩) exDisk (CCopy.exCopy 7 6#8 0x20) rfl _
    (CCopy.exCopy_open (n := 7) 6#8 (w := 0x20) (by omega) (by decide))

end Verif.CopyMain
