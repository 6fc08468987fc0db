import Verif.Util.ExampleMain
import Verif.Props.MinMaxMain
import Verif.Props.SwapTool
import Verif.Props.TurnTool

/-!
# C114: the examples that make files, from the arguments and files to the files

The claim: with the names of an input and an output in any order, the last of each counting, `modprm` exchanges the source coordinates
and `example2` copies, into the output and no other file; `example1` makes a file of the name given; where the arguments make no
sense, or there is no input, the programs end without touching a file.
-/

namespace Verif.ExampleMain
open Verif.Endian Verif.Files Verif.Params Verif.Options Verif.SortMain Verif.Flow Verif.Extremes Verif.FP Verif.Scalar
open Verif.ConcatTool (World)
open Verif.Life (Name)
open Verif.MinMaxMain (measured)

theorem twoSpec_alphabet : twoSpec = alphabet ['i', 'o'] [] := by
  funext c
  simp [twoSpec, alphabet]

theorem oneSpec_alphabet : oneSpec = alphabet ['o'] [] := by
  funext c
  simp [oneSpec, alphabet]

/-- The last value given for an option. -/
def Last (l : List Given) (c : Char) (v : Name) : Prop :=
  ∃ l₁ g l₂, l = l₁ ++ g :: l₂ ∧ g.means = some (c, v) ∧ ∀ g ∈ l₂, ∀ v, g.means ≠ some (c, v)

theorem nameOf_append (c : Char) (l r : List (Char × Name)) (h : nameOf c r = none) : nameOf c (l ++ r) = nameOf c l := by
  unfold nameOf at *
  rw [List.getLast?_eq_none_iff] at h
  rw [List.filter_append, List.map_append, h, List.append_nil]

theorem nameOf_none {c : Char} {l : List Given} (h : ∀ g ∈ l, ∀ v, g.means ≠ some (c, v)) :
    nameOf c (l.filterMap Given.means) = none := by
  unfold nameOf
  rw [List.getLast?_eq_none_iff, List.map_eq_nil_iff, List.filter_eq_nil_iff]
  intro a ha
  obtain ⟨g, hg, hm⟩ := List.mem_filterMap.1 ha
  intro hc
  have hc : a.1 = c := by simpa using hc
  exact h g hg a.2 (by rw [hm, ← hc])

theorem nameOf_last {c : Char} {v : Name} {l : List Given} (h : Last l c v) : nameOf c (l.filterMap Given.means) = some v := by
  obtain ⟨l₁, g, l₂, rfl, hg, hr⟩ := h
  rw [List.filterMap_append, List.filterMap_cons, hg]
  dsimp only
  rw [show l₁.filterMap Given.means ++ (c, v) :: l₂.filterMap Given.means =
    (l₁.filterMap Given.means ++ [(c, v)]) ++ l₂.filterMap Given.means by simp, nameOf_append _ _ _ (nameOf_none hr)]
  unfold nameOf
  simp

theorem measured_append (spec : Spec) (a b : List (Char × Name)) (h : ∀ x ∈ a, spec x.1 = some true) :
    measured spec (a ++ b) = measured spec b := by
  induction a with
  | nil => rfl
  | cons x a ih =>
    rw [List.cons_append]
    unfold measured
    rw [if_pos (h x (by simp))]
    exact (ih fun y hy => h y (by simp [hy])).trans (by cases b <;> rfl)

theorem known {spec : Spec} (hf : ∀ c, spec c ≠ some false) {l : List Given} (h : ∀ g ∈ l, g.Fits spec) :
    ∀ x ∈ l.filterMap Given.means, spec x.1 = some true := by
  intro x hx
  obtain ⟨g, hg, hm⟩ := List.mem_filterMap.1 hx
  have := h g hg
  cases g with
  | flag c => exact absurd this (hf c)
  | apart c v =>
    obtain rfl : (c, v) = x := by simpa [Given.means] using hm
    exact this
  | joined c v =>
    obtain rfl : (c, v) = x := by simpa [Given.means] using hm
    exact this.1
  | word v => simp [Given.means] at hm

theorem two_flag (c : Char) : twoSpec c ≠ some false := by unfold twoSpec; split <;> simp
theorem one_flag (c : Char) : oneSpec c ≠ some false := by unfold oneSpec; split <;> simp

theorem measured_given {spec : Spec} (hd : spec '-' = none) (hf : ∀ c, spec c ≠ some false) {l : List Given}
    (h : ∀ g ∈ l, g.Fits spec) : measured spec (getopt spec (l.flatMap Given.words)) = .ok () := by
  rw [C101_options spec hd l h, ← List.append_nil (l.filterMap _), measured_append spec _ _ (known hf h)]
  rfl

/-- With two names, the work is done on the two files. -/
theorem twoFiles_run (prog : Disk → Disk → Res Disk) (l : List Given) (h : ∀ g ∈ l, g.Fits twoSpec) {a b : Name}
    (ha : Last l 'i' a) (hb : Last l 'o' b) (hab : a ≠ b) (w : World) {d : Disk} (hw : w a = some d) {i : Info}
    (hopen : openRead d = .ok i) {out : Disk} (hp : prog d ((w b).getD ⟨0, fun _ => 0#8⟩) = .ok out) :
    twoFiles prog (l.flatMap Given.words) w = .ok (Function.update w b (some out)) := by
  have hc : MinMaxMain.content w a = d := by unfold MinMaxMain.content; rw [hw]; rfl
  unfold twoFiles
  rw [measured_given (by decide) two_flag h, Res.ok_bind, C101_options twoSpec (by decide) l h, nameOf_last ha, nameOf_last hb]
  dsimp only
  rw [hc, hopen, Res.ok_bind, hw]
  rw [if_neg (by simp), if_neg (fun e => hab e.symm)]
  rw [show MinMaxMain.content w b = (w b).getD ⟨0, fun _ => 0#8⟩ from rfl, hp, Res.ok_bind]

/-- **C114**, `modprm`. The options in any order, with other words between them, the last name of each kind counting; any file that
opens with samples and a positive interval, any number of processes and any order of their calls: the program ends; the output opens
with the numbers of the input, the source coordinates of every trace are exchanged, and no other file is changed. Missing: as in C83
(`C83_samples_refuted`, `C83_header_refuted`, `C83_interval_refuted`). -/
theorem C114_modprm_partial (sched : List (Nat × Nat) → List (Nat × Nat)) (hs : ∀ l, (sched l).Perm l) (P : Nat) (hP : 0 < P)
    (l : List Given) (h : ∀ g ∈ l, g.Fits (alphabet ['i', 'o'] [])) (a b : Name) (ha : Last l 'i' a) (hb : Last l 'o' b) (hab : a ≠ b)
    (w : World) (d : Disk) (hw : w a = some d) (i : Info) (hopen : openRead d = .ok i) (hd : d.size < 2 ^ 63) (h0 : 0 < i.ns)
    (h1 : i.ns ≤ 32767) (hinc : 0 < i.inc) :
    ∃ w' out, modprmMain sched P (l.flatMap Given.words) w = .ok w' ∧ w' b = some out ∧ (∀ n, n ≠ b → w' n = w n) ∧
      openRead out = .ok ⟨i.ns, i.nt, i.inc, 5#16, CharEnc.readText (shown (CCopy.cstr i.text))⟩ ∧
      ∀ k, k < i.nt → CSwap.Swapped i.ns d k out := by
  rw [← twoSpec_alphabet] at h
  obtain ⟨o, e1, e2, -, e4, -⟩ := CSwap.C83_swap_partial sched hs P hP d i hopen hd h0 h1 hinc ((w b).getD ⟨0, fun _ => 0#8⟩)
  exact ⟨_, o, twoFiles_run _ l h ha hb hab w hw hopen e1, Function.update_self .., fun n hn => Function.update_of_ne hn _ _, e2, e4⟩

/-- **C114**, `example2`. The same of files with as many traces as samples in the IEEE format. Missing: as in C84
(`C84_shape_refuted`, `C84_overread_refuted`, `C84_interval_refuted`, `C84_processes_refuted`). -/
theorem C114_turn_partial (null0 : Bool) (junk : Nat → Byte) (sched : List Decomp.Dec → List Decomp.Dec)
    (hs : ∀ l, (sched l).Perm l) (P : Nat) (hP : 0 < P)
    (l : List Given) (h : ∀ g ∈ l, g.Fits (alphabet ['i', 'o'] [])) (a b : Name) (ha : Last l 'i' a) (hb : Last l 'o' b) (hab : a ≠ b)
    (w : World) (d : Disk) (hw : w a = some d) (i : Info) (hopen : openRead d = .ok i) (hd : d.size < 2 ^ 63) (h0 : 0 < i.ns)
    (h1 : i.ns ≤ 32767) (hsq : i.nt = i.ns) (hinc : 0 < i.inc) (hfmt : i.format ≠ 1#16) (hnull : null0 = false ∨ P ≤ i.nt) :
    ∃ w' out, example2Main null0 junk sched P (l.flatMap Given.words) w = .ok w' ∧ w' b = some out ∧
      (∀ n, n ≠ b → w' n = w n) ∧
      openRead out = .ok ⟨i.ns, i.nt, i.inc, 5#16, CharEnc.readText (shown (CCopy.cstr i.text))⟩ ∧
      ∀ k, k < i.nt → CCopy.Carried i.ns d k out := by
  rw [← twoSpec_alphabet] at h
  obtain ⟨o, e1, e2, -, e4⟩ := CTurn.C84_square_partial null0 junk sched hs P hP d i hopen hd h0 h1 hsq hinc hfmt hnull
    ((w b).getD ⟨0, fun _ => 0#8⟩)
  exact ⟨_, o, twoFiles_run _ l h ha hb hab w hw hopen e1, Function.update_self .., fun n hn => Function.update_of_ne hn _ _, e2, e4⟩

/-- **C114**, `example1` in both languages: the last name given is that of a file of 40000 traces, and no other file is changed. Missing:
the interval, which is 2304 microseconds instead of the four seconds asked for (`C82_example1_refuted`), and more processes than
traces. -/
theorem C114_make_partial (bits : Nat → BitVec 32) (sched : List Decomp.Dec → List Decomp.Dec)
    (sched' : List (Decomp.Dec × Bool) → List (Decomp.Dec × Bool))
    (hs : ∀ l, (sched l).Perm l) (hs' : ∀ l, (sched' l).Perm l) (P : Nat) (hP : 0 < P) (hle : P ≤ 40000)
    (l : List Given) (h : ∀ g ∈ l, g.Fits (alphabet ['o'] [])) (b : Name) (hb : Last l 'o' b) (hne : b ≠ []) (w : World) :
    ∃ w₁ w₂ o₁ o₂, example1CMain bits sched P (l.flatMap Given.words) w = .ok w₁ ∧
      example1CCMain bits sched' P (l.flatMap Given.words) w = .ok (0, w₂) ∧
      w₁ b = some o₁ ∧ w₂ b = some o₂ ∧ (∀ n, n ≠ b → w₁ n = w n ∧ w₂ n = w n) ∧
      ∀ d ∈ [o₁, o₂], ∃ i, openRead d = .ok i ∧ i.ns = 1000 ∧ i.nt = 40000 ∧ i.format = 5#16 ∧
        ∀ k, k < 40000 → CCreate.Made bits 1000 k (2400 + k) (1600 + k) k d := by
  rw [← oneSpec_alphabet] at h
  obtain ⟨o, o', e1, e2, e3⟩ := CCreate.C82_example1_refuted bits sched sched' hs hs' P hP hle (MinMaxMain.content w b)
  refine ⟨Function.update w b (some o), Function.update w b (some o'), o, o', ?_, ?_, Function.update_self .., Function.update_self ..,
    fun n hn => ⟨Function.update_of_ne hn _ _, Function.update_of_ne hn _ _⟩, fun d hd => ?_⟩
  · unfold example1CMain
    rw [measured_given (by decide) one_flag h, Res.ok_bind, C101_options oneSpec (by decide) l h, nameOf_last hb]
    dsimp only
    rw [e1, Res.ok_bind]
  · unfold example1CCMain
    rw [C101_options oneSpec (by decide) l h]
    dsimp only
    rw [nameOf_last hb, if_pos, Option.getD_some, if_neg hne, e2, Res.ok_bind]
    rw [List.all_eq_true]
    intro x hx
    have := known one_flag h x hx
    unfold oneSpec at this
    by_contra hc
    rw [if_neg (by simpa using hc)] at this
    cases this
  · obtain ⟨g1, g2⟩ := e3 d hd
    exact ⟨_, g1, rfl, rfl, rfl, g2⟩

/-- **C114**: without one of the names, or without the input, the programs end before anything is written. -/
theorem C114_missing (prog : Disk → Disk → Res Disk) (l : List Given) (h : ∀ g ∈ l, g.Fits (alphabet ['i', 'o'] [])) (w : World)
    (hl : (∀ g ∈ l, ∀ v, g.means ≠ some ('i', v)) ∨ (∀ g ∈ l, ∀ v, g.means ≠ some ('o', v)) ∨ ∃ a, Last l 'i' a ∧ w a = none) :
    twoFiles prog (l.flatMap Given.words) w = .abort := by
  rw [← twoSpec_alphabet] at h
  unfold twoFiles
  rw [measured_given (by decide) two_flag h, Res.ok_bind, C101_options twoSpec (by decide) l h]
  rcases hl with hl | hl | ⟨a, ha, hw⟩
  · rw [nameOf_none hl]
  · rw [nameOf_none hl]
    cases nameOf 'i' (l.filterMap Given.means) <;> rfl
  · rw [nameOf_last ha]
    cases nameOf 'o' (l.filterMap Given.means) with
    | none => rfl
    | some b =>
      dsimp only
      have ho : openRead (MinMaxMain.content w a) = .ok ⟨0, 0, 0, 5#16, []⟩ := by
        rw [show MinMaxMain.content w a = ⟨0, fun _ => 0#8⟩ by unfold MinMaxMain.content; rw [hw]; rfl]
        unfold openRead
        rw [if_neg (by show ¬ 3600 ≤ 0; omega)]
      rw [ho, Res.ok_bind, hw]
      rfl

/-- C114 fails: after an unknown letter anything may happen in the programs in C, whatever comes before and after; `example1.cc` ends
with a status that says so and has not touched a file. -/
theorem C114_letter_refuted (prog : Disk → Disk → Res Disk) (bits : Nat → BitVec 32)
    (sched : List Decomp.Dec → List Decomp.Dec) (sched' : List (Decomp.Dec × Bool) → List (Decomp.Dec × Bool)) (P : Nat)
    (l : List Given) (h : ∀ g ∈ l, g.Fits (alphabet ['o'] [])) (z : Char) (hi : z ≠ 'i') (ho : z ≠ 'o') (hd : z ≠ '-') (r : List Name) (w : World) :
    twoFiles prog (l.flatMap Given.words ++ ['-', z] :: r) w = .ub ∧
      example1CMain bits sched P (l.flatMap Given.words ++ ['-', z] :: r) w = .ub ∧
      example1CCMain bits sched' P (l.flatMap Given.words ++ ['-', z] :: r) w = .ok (-1, w) := by
  rw [← oneSpec_alphabet] at h
  have h2 : ∀ g ∈ l, g.Fits twoSpec := by
    intro g hg
    have := h g hg
    have key : ∀ c, oneSpec c = some true → twoSpec c = some true := by
      intro c hc
      unfold oneSpec at hc
      unfold twoSpec
      split at hc
      · rw [if_pos (Or.inr ‹_›)]
      · cases hc
    cases g with
    | flag c => exact absurd this (one_flag c)
    | apart c v => exact key c this
    | joined c v => exact ⟨key c this.1, this.2⟩
    | word v => exact this
  have z1 : oneSpec z = none := by unfold oneSpec; rw [if_neg ho]
  have z2 : twoSpec z = none := by unfold twoSpec; rw [if_neg (by simp [hi, ho])]
  have g1 : ∀ spec : Spec, spec z = none → getopt spec (['-', z] :: r) = ('?', []) :: getopt spec r := by
    intro spec hs
    conv_lhs => unfold getopt
    rw [if_neg (by simpa using hd)]
    simp [letters, hs]
  refine ⟨?_, ?_, ?_⟩
  · unfold twoFiles
    rw [getopt_append twoSpec (by decide) l h2, g1 _ z2, measured_append _ _ _ (known two_flag h2)]
    rfl
  · unfold example1CMain
    rw [getopt_append oneSpec (by decide) l h, g1 _ z1, measured_append _ _ _ (known one_flag h)]
    rfl
  · unfold example1CCMain
    rw [getopt_append oneSpec (by decide) l h, g1 _ z1]
    dsimp only
    rw [if_neg]
    simp

/-- C114 fails: so it is if the last option has no value. -/
theorem C114_value_refuted (prog : Disk → Disk → Res Disk) (l : List Given) (h : ∀ g ∈ l, g.Fits (alphabet ['i', 'o'] [])) (c : Char)
    (hc : c = 'i' ∨ c = 'o') (w : World) : twoFiles prog (l.flatMap Given.words ++ [['-', c]]) w = .ub := by
  rw [← twoSpec_alphabet] at h
  have g1 : getopt twoSpec [['-', c]] = [('?', [])] := by rcases hc with rfl | rfl <;> decide
  unfold twoFiles
  rw [getopt_append twoSpec (by decide) l h, g1, measured_append _ _ _ (known two_flag h)]
  rfl

/-- C114 fails: so it is if the names are the same, as for changing a file in place. -/
theorem C114_same_refuted (prog : Disk → Disk → Res Disk) (l : List Given) (h : ∀ g ∈ l, g.Fits (alphabet ['i', 'o'] [])) (a : Name)
    (ha : Last l 'i' a) (hb : Last l 'o' a) (w : World) (d : Disk) (hw : w a = some d) (i : Info) (hopen : openRead d = .ok i) :
    twoFiles prog (l.flatMap Given.words) w = .ub := by
  rw [← twoSpec_alphabet] at h
  have hc : MinMaxMain.content w a = d := by unfold MinMaxMain.content; rw [hw]; rfl
  unfold twoFiles
  rw [measured_given (by decide) two_flag h, Res.ok_bind, C101_options twoSpec (by decide) l h, nameOf_last ha, nameOf_last hb]
  dsimp only
  rw [hc, hopen, Res.ok_bind, hw]
  rw [if_neg (by simp), if_pos rfl]

theorem exSpec_alphabet : MinMaxMain.exSpec = alphabet ['i'] [] := by
  funext c
  simp [MinMaxMain.exSpec, alphabet]

/-- **C108** (the examples, the arguments): of several patterns, among words without a meaning, the last one counts, in `examples/minmax.cc`
and in `examples/minmax.c`. -/
theorem C108_example_last (P : Nat) (glob : Name → List Name) (l : List Given) (h : ∀ g ∈ l, g.Fits (alphabet ['i'] [])) (v : Name)
    (hv : Last l 'i' v) (w : World) :
    MinMaxMain.exMain P glob (l.flatMap Given.words) w = MinMaxMain.exMain P glob [['-', 'i'], v] w ∧
      MinMaxMain.exMainC P glob (l.flatMap Given.words) w = MinMaxMain.exMainC P glob [['-', 'i'], v] w := by
  rw [← exSpec_alphabet] at h
  have hf : ∀ c, MinMaxMain.exSpec c ≠ some false := by
    intro c
    unfold MinMaxMain.exSpec
    split <;> simp
  have h1 : getopt MinMaxMain.exSpec [['-', 'i'], v] = [('i', v)] := by
    have := C101_options MinMaxMain.exSpec (by decide) [.apart 'i' v] (by simp [Given.Fits, MinMaxMain.exSpec])
    simpa [Given.words, Given.means] using this
  have h2 : MinMaxMain.exName (l.filterMap Given.means) = v := by
    have := nameOf_last hv
    unfold nameOf at this
    unfold MinMaxMain.exName
    rw [this]
    rfl
  have h3 : ¬ ((l.filterMap Given.means).all fun a => decide (a.1 ≠ 'i')) = true := by
    obtain ⟨l₁, g, l₂, rfl, hg, -⟩ := hv
    intro e
    have := List.all_eq_true.1 e ('i', v) (List.mem_filterMap.2 ⟨g, by simp, hg⟩)
    simp at this
  constructor
  · unfold MinMaxMain.exMain
    rw [C101_options MinMaxMain.exSpec (by decide) l h, h1, h2]
    rfl
  · unfold MinMaxMain.exMainC
    rw [measured_given (by decide) hf h, C101_options MinMaxMain.exSpec (by decide) l h, h1, h2, Res.ok_bind, if_neg h3]
    rfl

/-! ### Cases -/

/-- The hypotheses of `C108_example_last`. -/
example : let l := [Given.apart 'i' ['*'], .word ['x'], .joined 'i' ['b']]
    (∀ g ∈ l, g.Fits (alphabet ['i'] [])) ∧ Last l 'i' ['b'] := by
  refine ⟨by simp [Given.Fits, alphabet], [.apart 'i' ['*'], .word ['x']], .joined 'i' ['b'], [], rfl, rfl, by simp⟩


/-- `-o x -i a rest -oz`: the second output counts. -/
def exArgs (a : Name) : List Given := [.apart 'o' ['x'], .apart 'i' a, .word ['r'], .joined 'o' ['z']]

theorem exArgs_fit (a : Name) : ∀ g ∈ exArgs a, g.Fits (alphabet ['i', 'o'] []) := by
  simp [exArgs, Given.Fits, alphabet]

theorem exArgs_in (a : Name) : Last (exArgs a) 'i' a :=
  ⟨[.apart 'o' ['x']], .apart 'i' a, [.word ['r'], .joined 'o' ['z']], rfl, rfl, by simp [Given.means]⟩

theorem exArgs_out (a : Name) : Last (exArgs a) 'o' ['z'] :=
  ⟨[.apart 'o' ['x'], .apart 'i' a, .word ['r']], .joined 'o' ['z'], [], rfl, rfl, by simp⟩

/-- The files. -/
def exDisk : World := fun n =>
  if n = ['a'] then some (CSwap.exSwap 3) else if n = ['b'] then some (CCopy.exCopy 2 6#8 0x20) else none

/-- The hypotheses of `C114_modprm_partial`: three traces on five processes. -/
example : ∃ w' out, modprmMain List.reverse 5 [['-', 'o'], ['x'], ['-', 'i'], ['a'], ['r'], ['-', 'o', 'z']] exDisk = .ok w' ∧
    w' ['z'] = some out ∧ w' ['x'] = none ∧ be32 out 2 0 37 = 0x06060606#32 := by
  obtain ⟨w', out, e1, e2, e3, -, e5⟩ := C114_modprm_partial List.reverse (fun l => List.reverse_perm l) 5 (by omega) (exArgs ['a'])
    (exArgs_fit _) ['a'] ['z'] (exArgs_in _) (exArgs_out _) (by decide) exDisk (CSwap.exSwap 3) rfl _
    (CSwap.exSwap_open (n := 3) (by decide)) (by decide) (by simp) (by simp) exInc_pos
  refine ⟨w', out, e1, e2, (e3 _ (by decide)).trans rfl, ?_⟩
  rw [(e5 0 (by simp)).numbers 37 (by simp)]; decide

/-- The hypotheses of `C114_turn_partial`: two traces of two samples. -/
example : ∃ w' out, example2Main true (fun _ => 9#8) List.reverse 2 [['-', 'o'], ['x'], ['-', 'i'], ['b'], ['r'], ['-', 'o', 'z']] exDisk =
      .ok w' ∧ w' ['z'] = some out ∧ w' ['a'] = some (CSwap.exSwap 3) ∧ recByte out 2 1 247 = 6#8 := by
  obtain ⟨w', out, e1, e2, e3, -, e5⟩ := C114_turn_partial true (fun _ => 9#8) List.reverse (fun l => List.reverse_perm l) 2 (by omega)
    (exArgs ['b']) (exArgs_fit _) ['b'] ['z'] (exArgs_in _) (exArgs_out _) (by decide) exDisk (CCopy.exCopy 2 6#8 0x20) rfl _
    (CCopy.exCopy_open (n := 2) 6#8 (w := 0x20) (by omega) (by decide)) (by decide) (by simp) (by simp) rfl exInc_pos (by decide)
    (Or.inr (by simp))
  refine ⟨w', out, e1, e2, (e3 _ (by decide)).trans rfl, ?_⟩
  rw [(e5 1 (by simp)).samples 247 (by omega) (by simp)]; decide

/-- The hypotheses of `C114_make_partial`. -/
example (w : World) : ∃ w' out, example1CCMain (fun _ => 0#32) id 3 [['-', 'o', 'z']] w = .ok (0, w') ∧ w' ['z'] = some out := by
  obtain ⟨-, w', -, o, -, e1, -, e2, -⟩ := C114_make_partial (fun _ => 0#32) id id (fun _ => List.Perm.refl _)
    (fun _ => List.Perm.refl _) 3 (by omega) (by omega) [.joined 'o' ['z']] (by simp [Given.Fits, alphabet]) ['z']
    ⟨[], _, [], rfl, rfl, by simp⟩ (by decide) w
  exact ⟨w', o, e1, e2⟩

/-- The hypotheses of `C114_missing`: there is no file `c`; there is no output named. -/
example : modprmMain id 2 [['-', 'o'], ['x'], ['-', 'i'], ['c'], ['r'], ['-', 'o', 'z']] exDisk = .abort ∧
    modprmMain id 2 [['-', 'i'], ['a']] exDisk = .abort :=
  ⟨C114_missing _ (exArgs ['c']) (exArgs_fit _) exDisk (Or.inr (Or.inr ⟨_, exArgs_in _, rfl⟩)),
    C114_missing _ [.apart 'i' ['a']] (by simp [Given.Fits, alphabet]) exDisk (Or.inr (Or.inl (by simp [Given.means])))⟩

/-- The hypotheses of `C114_letter_refuted` and `C114_value_refuted`. -/
example : modprmMain id 2 [['-', 'o', 'z'], ['-', 'h'], ['-', 'i'], ['a']] exDisk = .ub ∧
    modprmMain id 2 [['-', 'o', 'z'], ['-', 'i']] exDisk = .ub :=
  ⟨(C114_letter_refuted (CSwap.modprm id 2) (fun _ => 0#32) id id 2 [.joined 'o' ['z']] (by simp [Given.Fits, alphabet]) 'h' (by decide)
      (by decide) (by decide) [['-', 'i'], ['a']] exDisk).1,
    C114_value_refuted _ [.joined 'o' ['z']] (by simp [Given.Fits, alphabet]) 'i' (Or.inl rfl) exDisk⟩

/-- The hypotheses of `C114_same_refuted`. -/
example : modprmMain id 2 [['-', 'i'], ['a'], ['-', 'o'], ['a']] exDisk = .ub :=
  C114_same_refuted _ [.apart 'i' ['a'], .apart 'o' ['a']] (by simp [Given.Fits, alphabet]) ['a']
    ⟨[], _, [.apart 'o' ['a']], rfl, rfl, by simp [Given.means]⟩ ⟨[.apart 'i' ['a']], _, [], rfl, rfl, by simp⟩ exDisk (CSwap.exSwap 3) rfl _
    (CSwap.exSwap_open (n := 3) (by decide))

end Verif.ExampleMain
