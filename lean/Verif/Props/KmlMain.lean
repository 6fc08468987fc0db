import Verif.Util.KmlMain
import Verif.Props.KmlTool
import Verif.Props.ExampleMain

/-!
# C116: the program for maps, from the arguments and files to the files

The claim: `segy2kml` called with the names of SEG-Y files (or of a list of them), of an output, a zone and a folder in any order writes
the document of C98 to the output and changes no other file, in particular no input; with `-h` it only prints how it is called; where the
arguments make no sense it says so with its status and touches no file.
-/

namespace Verif.KmlMain
open Verif.Endian Verif.Files Verif.Params Verif.Ops Verif.Options Verif.KmlTool Verif.FP Verif.Scalar Verif.Flow
open Verif.ConcatTool (World)
open Verif.Life (Name)
open Verif.ExampleMain (Last nameOf nameOf_last)

variable {stof : Name → Option ℚ} {utm : ℚ → ℚ → Name → ℚ × ℚ} {cv : Conv ℚ ℚ} {cvt : Conv ℚ (BitVec 64)} {mid : Disk} {P : Nat}

theorem kmlSpec_alphabet : kmlSpec = alphabet ['i', 'o', 'f', 'z'] ['h'] := by
  funext c
  simp [kmlSpec, alphabet]

theorem given_last (c : Char) (l : List (Char × Name)) : (given c l).getLast? = nameOf c l := by
  have : given c l = (l.filter fun a => a.1 = c).map Prod.snd := by
    unfold given
    induction l with
    | nil => rfl
    | cons a l ih =>
      by_cases h : a.1 = c
      · rw [List.filterMap_cons, if_pos h, List.filter_cons_of_pos (by simpa using h), List.map_cons, ih]
      · rw [List.filterMap_cons, if_neg h, List.filter_cons_of_neg (by simpa using h), ih]
  rw [this]
  rfl

theorem placemarks_congr {fs gs : Name → Option Disk} {zone : Name} {names : List Name} (h : ∀ n ∈ names, fs n = gs n) :
    placemarks utm cv cvt P fs zone names = placemarks utm cv cvt P gs zone names := by
  induction names with
  | nil => rfl
  | cons n ns ih =>
    unfold placemarks
    rw [show KmlTool.content fs n = KmlTool.content gs n by unfold KmlTool.content; rw [h n (by simp)], ih fun m hm => h m (by simp [hm])]

/-- The program when a document is asked for. -/
theorem kml_run {l : List Given} (hl : ∀ g ∈ l, g.Fits kmlSpec) {w : World} {names : List Name} {folderName zone o : Name}
    (h : Asked stof w (l.filterMap Given.means) names folderName zone) (ho : Last l 'o' o) :
    kmlMain stof utm cv cvt mid P (l.flatMap Given.words) w =
      (placemarks utm cv cvt P (Function.update w o (some mid)) zone names).bind fun t =>
        .ok (0, Function.update w o (some (textDisk (head1 ++ folderName ++ head2 ++ t ++ tail1)))) := by
  obtain ⟨h1, h2, h3, h4, h5⟩ := options (l.filterMap Given.means)
  obtain ⟨g1, g2⟩ := files_asked h
  have e : (given 'o' (l.filterMap Given.means)).getLast? = some o := by rw [given_last, nameOf_last ho]
  obtain ⟨o', o1, o2⟩ := h.out
  rw [e, Option.some.injEq] at o1
  subst o1
  unfold kmlMain
  rw [C101_options kmlSpec (by decide) l hl]
  dsimp only
  rw [h1, h2, h3, h4, h.zoneIs, h.folderIs, e, badZone_ok h.zoneOk, g2]
  rw [if_neg (fun e => by obtain ⟨a, ha, hc⟩ := h5.1 e; exact h.help a ha hc), if_neg (by simp [g1, o2])]
  rw [Res.ok_bind]
  simp only [Bool.false_eq_true, if_false]
  rw [Res.ok_bind]
  rfl

/-- **C116**. Arguments that ask for a document (`Asked`, C98), in any order, the last output counting, which is none of the SEG-Y files;
any number of processes: the status is 0; the bytes of the output are those of a document with one placemark for each file, in order and
with its name; the line of a file joins two corners of the box around its sources, converted where C98 says so; no other file is
changed. Missing: as in C98, and an output that is also an input (`C116_same_refuted`). -/
theorem C116_files_partial (hcv : ∀ x, cv.ofF x = x) (hT : ∀ v, cvt.toT v = v) (hP : 0 < P) (l : List Given)
    (hl : ∀ g ∈ l, g.Fits (alphabet ['i', 'o', 'f', 'z'] ['h'])) (w : World) (names : List Name) (folderName zone o : Name) (hu : Gives utm zone)
    (h : Asked stof w (l.filterMap Given.means) names folderName zone) (ho : Last l 'o' o) (hno : o ∉ names) (hf : Clean folderName)
    (hn : ∀ n ∈ names, Clean n ∧ ∃ d i, w n = some d ∧ Segy d i) :
    ∃ w' out text all, kmlMain stof utm cv cvt mid P (l.flatMap Given.words) w = .ok (0, w') ∧ w' o = some out ∧
      (∀ n, n ≠ o → w' n = w n) ∧ out.size = text.length ∧ (∀ x c, text[x]? = some c → out.byte x = BitVec.ofNat 8 c.toNat) ∧
      readXml text = some all ∧ titles all = [folderName] ∧ labels all = names ∧ (paths all).length = names.length ∧
      ∀ (j : Nat) n d i b, names[j]? = some n → w n = some d → openRead d = .ok i → IsBox d i b → ∃ path, (paths all)[j]? = some path ∧
        if 180 < b.xmin ∧ zone ≠ [] then
          Joins path ((utm b.xmin b.ymin zone).2, (utm b.xmin b.ymin zone).1) ((utm b.xmax b.ymax zone).2, (utm b.xmax b.ymax zone).1)
        else Joins path (b.ymin, b.xmin) (b.ymax, b.xmax) := by
  rw [← kmlSpec_alphabet] at hl
  obtain ⟨text, all, e1, e2⟩ := C98_lines_partial (stof := stof) (fs := w) hcv hT hP hu h hf hn
  have hc : placemarks utm cv cvt P (Function.update w o (some mid)) zone names = placemarks utm cv cvt P w zone names :=
    placemarks_congr fun n hm => Function.update_of_ne (fun e : n = o => hno (e ▸ hm)) _ _
  rw [main_asked h] at e1
  refine ⟨Function.update w o (some (textDisk text)), textDisk text, text, all, ?_, Function.update_self ..,
    fun n hn => Function.update_of_ne hn _ _, rfl, fun x c hx => ?_, e2⟩
  · rw [kml_run hl h ho, hc]
    cases hp : placemarks utm cv cvt P w zone names with
    | ok t =>
      rw [hp] at e1
      have : head1 ++ folderName ++ head2 ++ t ++ tail1 = text := by
        have e1 : Res.ok (some (head1 ++ folderName ++ head2 ++ t ++ tail1)) = Res.ok (some text) := e1
        simpa only [Res.ok.injEq, Option.some.injEq] using e1
      rw [← this]
      rfl
    | ub => rw [hp] at e1; cases e1
    | abort => rw [hp] at e1; cases e1
  · show BitVec.ofNat 8 (text[x]?.getD ' ').toNat = _
    rw [hx]
    rfl

/-- **C116**: with `-h` anywhere the status is 0 and no file is touched. -/
theorem C116_help (l : List Given) (hl : ∀ g ∈ l, g.Fits (alphabet ['i', 'o', 'f', 'z'] ['h'])) (hh : Given.flag 'h' ∈ l) (w : World) :
    kmlMain stof utm cv cvt mid P (l.flatMap Given.words) w = .ok (0, w) := by
  rw [← kmlSpec_alphabet] at hl
  obtain ⟨-, -, -, -, h5⟩ := options (l.filterMap Given.means)
  unfold kmlMain
  rw [C101_options kmlSpec (by decide) l hl]
  dsimp only
  rw [if_pos (h5.2 ⟨('h', []), List.mem_filterMap.2 ⟨_, hh, rfl⟩, rfl⟩)]

/-- **C116**: without an input, or without an output, or with an output without a name, the status is -2 and no file is touched. -/
theorem C116_missing (l : List Given) (hl : ∀ g ∈ l, g.Fits (alphabet ['i', 'o', 'f', 'z'] ['h'])) (hh : Given.flag 'h' ∉ l)
    (hm : (∀ g ∈ l, ∀ v, g.means ≠ some ('i', v)) ∨ (∀ g ∈ l, ∀ v, g.means ≠ some ('o', v)) ∨ Last l 'o' []) (w : World) :
    kmlMain stof utm cv cvt mid P (l.flatMap Given.words) w = .ok (-2, w) := by
  rw [← kmlSpec_alphabet] at hl
  obtain ⟨h1, h2, -, -, h5⟩ := options (l.filterMap Given.means)
  have hhelp : ∀ a ∈ l.filterMap Given.means, a.1 ≠ 'h' := by
    intro a ha hc
    obtain ⟨g, hg, hma⟩ := List.mem_filterMap.1 ha
    have hfit := hl g hg
    cases g with
    | flag c =>
      obtain rfl : (c, []) = a := by simpa [Given.means] using hma
      obtain rfl : c = 'h' := hc
      exact hh hg
    | apart c v =>
      obtain rfl : (c, v) = a := by simpa [Given.means] using hma
      obtain rfl : c = 'h' := hc
      exact absurd hfit (by decide : kmlSpec 'h' ≠ some true)
    | joined c v =>
      obtain rfl : (c, v) = a := by simpa [Given.means] using hma
      obtain rfl : c = 'h' := hc
      exact absurd hfit.1 (by decide : kmlSpec 'h' ≠ some true)
    | word v => simp [Given.means] at hma
  have hnone : ∀ c, (∀ g ∈ l, ∀ v, g.means ≠ some (c, v)) → given c (l.filterMap Given.means) = [] := by
    intro c hc
    unfold given
    rw [List.filterMap_eq_nil_iff]
    intro a ha
    obtain ⟨g, hg, hma⟩ := List.mem_filterMap.1 ha
    exact if_neg fun e => hc g hg a.2 (by rw [hma, ← e])
  unfold kmlMain
  rw [C101_options kmlSpec (by decide) l hl]
  dsimp only
  rw [if_neg (fun e => by obtain ⟨a, ha, hc⟩ := h5.1 e; exact hhelp a ha hc), h1, h2, if_pos]
  rcases hm with hm | hm | hm
  · exact Or.inl (hnone _ hm)
  · exact Or.inr (by rw [hnone _ hm]; rfl)
  · exact Or.inr (by rw [given_last, nameOf_last hm]; rfl)

/-- **C116**: with a zone that does not end in the letter of a hemisphere, or whose number is not a whole one from 1 to 60, the status is
-1 and no file is touched. -/
theorem C116_zone (l : List Given) (hl : ∀ g ∈ l, g.Fits (alphabet ['i', 'o', 'f', 'z'] ['h'])) (hh : ∀ a ∈ l.filterMap Given.means, a.1 ≠ 'h')
    (i o z : Name) (c : Char) (hi : Last l 'i' i) (ho : Last l 'o' o) (hne : o ≠ []) (hz : Last l 'z' (z ++ [c]))
    (hbad : c ∉ ['n', 'N', 's', 'S'] ∨ ∃ x : ℚ, stof (z ++ [c]) = some x ∧ ∀ k : ℕ, 1 ≤ k → k ≤ 60 → x ≠ k) (w : World) :
    kmlMain stof utm cv cvt mid P (l.flatMap Given.words) w = .ok (-1, w) := by
  rw [← kmlSpec_alphabet] at hl
  obtain ⟨h1, h2, h3, -, h5⟩ := options (l.filterMap Given.means)
  have hin : given 'i' (l.filterMap Given.means) ≠ [] := by
    intro e
    have := given_last 'i' (l.filterMap Given.means)
    rw [e, nameOf_last hi] at this
    simp at this
  have hb : badZone stof (z ++ [c]) = .ok true := by
    unfold badZone
    rw [List.getLast?_append_of_ne_nil _ (by simp)]
    simp only [List.getLast?_singleton]
    by_cases hc : c.toUpper ≠ 'N' ∧ c.toUpper ≠ 'S'
    · rw [if_pos hc]
    · rw [if_neg hc]
      have hc' : c ∈ ['n', 'N', 's', 'S'] := by
        rw [not_and_or, not_not, not_not, upperN, upperS] at hc
        simp only [List.mem_cons, List.not_mem_nil, or_false]
        tauto
      rcases hbad with hbad | ⟨x, hx, hk⟩
      · exact absurd hc' hbad
      · rw [hx]
        dsimp only
        congr 1
        simp only [Bool.or_eq_true, decide_eq_true_eq]
        by_contra hcon
        rw [not_or, not_or, not_lt, not_lt, not_not] at hcon
        obtain ⟨⟨c1, c2⟩, c3⟩ := hcon
        have hf1 : 1 ≤ ⌊x⌋ := by
          have : (1 : ℚ) ≤ (⌊x⌋ : ℚ) := by rw [← c3]; exact c1
          exact_mod_cast this
        have hf2 : ⌊x⌋ ≤ 60 := by
          have : (⌊x⌋ : ℚ) ≤ 60 := by rw [← c3]; exact c2
          exact_mod_cast this
        refine hk ⌊x⌋.toNat (by omega) (by omega) ?_
        have : ((⌊x⌋.toNat : ℤ) : ℚ) = (⌊x⌋ : ℚ) := by rw [Int.toNat_of_nonneg (by omega)]
        rw [show ((⌊x⌋.toNat : ℕ) : ℚ) = ((⌊x⌋.toNat : ℤ) : ℚ) by norm_cast, this]
        exact c3
  unfold kmlMain
  rw [C101_options kmlSpec (by decide) l hl]
  dsimp only
  rw [if_neg (fun e => by obtain ⟨a, ha, hc⟩ := h5.1 e; exact hh a ha hc), h1, h2, h3]
  rw [given_last, given_last, nameOf_last ho, nameOf_last hz, Option.getD_some, Option.getD_some, if_neg (by simp [hin, hne]), hb]
  rfl

/-- C116 fails: an option that is not known is passed over without a message. -/
theorem C116_unknown_refuted (l : List Given) (hl : ∀ g ∈ l, g.Fits (alphabet ['i', 'o', 'f', 'z'] ['h'])) (y : Char) (hy : y ∉ ['i', 'o', 'f', 'z', 'h', '-'])
    (r : List Name) (w : World) :
    kmlMain stof utm cv cvt mid P (l.flatMap Given.words ++ ['-', y] :: r) w =
      kmlMain stof utm cv cvt mid P (l.flatMap Given.words ++ r) w := by
  rw [← kmlSpec_alphabet] at hl
  simp only [List.mem_cons, List.not_mem_nil, or_false, not_or] at hy
  obtain ⟨y1, y2, y3, y4, y5, y6⟩ := hy
  have hs : kmlSpec y = none := by
    unfold kmlSpec
    rw [if_neg (by simp [y1, y2, y3, y4]), if_neg y5]
  have hg : getopt kmlSpec (['-', y] :: r) = ('?', []) :: getopt kmlSpec r := by
    conv_lhs => unfold getopt
    rw [if_neg (by simpa using y6)]
    simp [letters, hs]
  have e : (getopt kmlSpec (l.flatMap Given.words ++ ['-', y] :: r)).foldl option {} =
      (getopt kmlSpec (l.flatMap Given.words ++ r)).foldl option {} := by
    rw [getopt_append kmlSpec (by decide) l hl, getopt_append kmlSpec (by decide) l hl, hg, List.foldl_append, List.foldl_append,
      List.foldl_cons]
    rfl
  unfold kmlMain
  rw [e]

/-- C116 fails if the output is one of the SEG-Y files: it is emptied before it is read. The status is 0; in place of the SEG-Y file there
is a document, whose first byte is that of `<`, and in it the line of this file joins the point at longitude and latitude zero to
itself. -/
theorem C116_same_refuted (hcv : ∀ x, cv.ofF x = x) (hT : ∀ v, cvt.toT v = v) (hP : 0 < P) (l : List Given)
    (hl : ∀ g ∈ l, g.Fits (alphabet ['i', 'o', 'f', 'z'] ['h'])) (w : World) (names : List Name) (folderName zone o : Name) (hu : Gives utm zone)
    (h : Asked stof w (l.filterMap Given.means) names folderName zone) (ho : Last l 'o' o) (j : Nat) (hj : names[j]? = some o)
    (hf : Clean folderName) (hn : ∀ n ∈ names, Clean n ∧ ∃ d i, w n = some d ∧ Segy d i) (hmid : mid.size < 3600) :
    ∃ w' out text all, kmlMain stof utm cv cvt mid P (l.flatMap Given.words) w = .ok (0, w') ∧ w' o = some out ∧ out.byte 0 = 0x3C#8 ∧
      (∀ d, w o = some d → d.byte 0 ≠ 0x3C#8 → w' o ≠ w o) ∧
      out.size = text.length ∧ (∀ x c, text[x]? = some c → out.byte x = BitVec.ofNat 8 c.toNat) ∧ readXml text = some all ∧
      labels all = names ∧
      (paths all)[j]? = some [[['0', '.', '0'], ['0', '.', '0'], ['0']], [['0', '.', '0'], ['0', '.', '0'], ['0']]] := by
  rw [← kmlSpec_alphabet] at hl
  have hmo : openRead mid = .ok ⟨0, 0, 0, 5#16, []⟩ := by
    unfold openRead
    rw [if_neg (by show ¬ 3600 ≤ mid.size; omega)]
  have hr : ∀ n ∈ names, Clean n ∧ Usable utm cv cvt P (Function.update w o (some mid)) zone n := fun n hm =>
    ⟨(hn n hm).1, usable_of hcv hT hP hu (by
      by_cases hno : n = o
      · subst hno
        exact Or.inr ⟨mid, _, Function.update_self .., Or.inr ⟨hmo, rfl⟩⟩
      · obtain ⟨-, d, i, h1, h2⟩ := hn n hm
        exact Or.inr ⟨d, i, by rw [Function.update_of_ne hno, h1], Or.inl h2⟩)⟩
  obtain ⟨t, ht⟩ := placemarks_ok names fun n hm => (hr n hm).2
  obtain ⟨evs, e2, e3, -, -, e5⟩ := placemarks_read names hr ht
  obtain ⟨all, e6, e7, e8, -⟩ := read_document hf e2
  have hb : (textDisk (head1 ++ folderName ++ head2 ++ t ++ tail1)).byte 0 = 0x3C#8 := by
    have : (head1 ++ folderName ++ head2 ++ t ++ tail1)[0]? = some '<' := by
      rw [List.append_assoc, List.append_assoc, List.append_assoc]
      rfl
    show BitVec.ofNat 8 ((head1 ++ folderName ++ head2 ++ t ++ tail1)[0]?.getD ' ').toNat = _
    rw [this]
    rfl
  refine ⟨_, _, _, all, by rw [kml_run hl h ho, ht]; rfl, Function.update_self .., hb, fun d hd hne e => ?_, rfl, fun x c hx => ?_, e6,
    e7.trans e3, ?_⟩
  · rw [Function.update_self, hd, Option.some.injEq] at e
    rw [← e] at hne
    exact hne hb
  · show BitVec.ofNat 8 ((head1 ++ folderName ++ head2 ++ t ++ tail1)[x]?.getD ' ').toNat = _
    rw [hx]
    rfl
  · have hc : corners cv cvt P (KmlTool.content (Function.update w o (some mid)) o) = .ok ⟨0, 0, 0, 0⟩ := by
      rw [show KmlTool.content (Function.update w o (some mid)) o = mid by unfold KmlTool.content; rw [Function.update_self]; rfl]
      exact corners_none cv hcv cvt hT P hP hmo rfl
    obtain ⟨path, k1, s2, s0, s3, s1, g2, g0, g3, g1, k2⟩ := e5 j o _ hj hc
    have hz : converted utm zone ⟨0, 0, 0, 0⟩ = ⟨0, 0, 0, 0⟩ := if_neg (by norm_num)
    have hp : Util.highPrecStr 0 = .ok ['0', '.', '0'] := by
      unfold Util.highPrecStr
      rw [if_pos (by unfold InI64; norm_num)]
      simp only [Int.floor_zero, Int.cast_zero, sub_zero, rnd_zero, zero_mul]
      rfl
    rw [hz] at g2 g0 g3 g1
    simp only [hp, Res.ok.injEq] at g2 g0 g3 g1
    rw [e8, k1, k2, ← g2, ← g0, ← g3, ← g1]

/-! ### Cases -/

/-- `-i a.sgy -z31N -i b.sgy -o x rest -o m.kml`. -/
def exArgs (o : Name) : List Given :=
  [.apart 'i' (chars% "a.sgy"), .joined 'z' (chars% "31N"), .apart 'i' (chars% "b.sgy"), .apart 'o' ['x'], .word ['r'], .apart 'o' o]

theorem exArgs_fit (o : Name) : ∀ g ∈ exArgs o, g.Fits (alphabet ['i', 'o', 'f', 'z'] ['h']) := by simp [exArgs, Given.Fits, alphabet]

theorem exArgs_out (o : Name) : Last (exArgs o) 'o' o :=
  ⟨[.apart 'i' (chars% "a.sgy"), .joined 'z' (chars% "31N"), .apart 'i' (chars% "b.sgy"), .apart 'o' ['x'], .word ['r']], _, [], rfl, rfl,
    by simp⟩

theorem exArgs_asked (o : Name) (ho : o ≠ []) :
    Asked exStof exFiles ((exArgs o).filterMap Given.means) [chars% "a.sgy", chars% "b.sgy"] (chars% "SEG-Y") (chars% "31N") where
  help := by simp [exArgs, Given.means]
  out := ⟨o, rfl, ho⟩
  zoneIs := rfl
  zoneOk := exAsked.zoneOk
  folderIs := rfl
  namesAre := Or.inl ⟨_, rfl, ⟨chars% "a.sg", Or.inl rfl⟩, rfl⟩

/-- The hypotheses of `C116_files_partial`. -/
example : ∃ w' out text all, kmlMain exStof exUtm FourDOut.exConvR FourDOut.exConvQ ⟨0, fun _ => 0#8⟩ 3
      ((exArgs (chars% "m.kml")).flatMap Given.words) exFiles = .ok (0, w') ∧ w' (chars% "m.kml") = some out ∧ w' ['x'] = none ∧
    out.size = text.length ∧ readXml text = some all ∧ labels all = [chars% "a.sgy", chars% "b.sgy"] := by
  obtain ⟨w', out, text, all, e1, e2, e3, e4, -, e6, -, e8, -⟩ := C116_files_partial (stof := exStof) (utm := exUtm) (cv := FourDOut.exConvR)
    (cvt := FourDOut.exConvQ) (mid := ⟨0, fun _ => 0#8⟩) (P := 3) (fun _ => rfl) (fun _ => rfl) (by omega) _ (exArgs_fit _) exFiles _ _ _ _
    (exGives _) (exArgs_asked (chars% "m.kml") (by decide)) (exArgs_out _) (by decide) ⟨by decide, by decide⟩ exSegy
  exact ⟨w', out, text, all, e1, e2, (e3 _ (by decide)).trans rfl, e4, e6, e8⟩

/-- The hypotheses of `C116_same_refuted`: the second SEG-Y file is the output. -/
example : ∃ w' out, kmlMain exStof exUtm FourDOut.exConvR FourDOut.exConvQ ⟨0, fun _ => 0#8⟩ 3
      ((exArgs (chars% "b.sgy")).flatMap Given.words) exFiles = .ok (0, w') ∧ w' (chars% "b.sgy") = some out ∧ out.byte 0 = 0x3C#8 := by
  obtain ⟨w', out, -, -, e1, e2, e3, -⟩ := C116_same_refuted (stof := exStof) (utm := exUtm) (cv := FourDOut.exConvR)
    (cvt := FourDOut.exConvQ) (mid := ⟨0, fun _ => 0#8⟩) (P := 3) (fun _ => rfl) (fun _ => rfl) (by omega) _ (exArgs_fit _) exFiles _ _ _ _
    (exGives _) (exArgs_asked (chars% "b.sgy") (by decide)) (exArgs_out _) 1 rfl ⟨by decide, by decide⟩ exSegy (by decide)
  exact ⟨w', out, e1, e2, e3⟩

/-- The hypotheses of `C116_help`, `C116_missing`, `C116_zone` and `C116_unknown_refuted`. -/
example (mid : Disk) (w : World) :
    kmlMain exStof exUtm FourDOut.exConvR FourDOut.exConvQ mid 3 [['-', 'o'], ['x'], ['-', 'h']] w = .ok (0, w) ∧
    kmlMain exStof exUtm FourDOut.exConvR FourDOut.exConvQ mid 3 [['-', 'o'], ['x']] w = .ok (-2, w) ∧
    kmlMain exStof exUtm FourDOut.exConvR FourDOut.exConvQ mid 3 [['-', 'i'], ['a'], ['-', 'o'], ['x'], ['-', 'z'], ['3', '1']] w = .ok (-1, w) ∧
    kmlMain exStof exUtm FourDOut.exConvR FourDOut.exConvQ mid 3 [['-', 'v'], ['-', 'h']] w = .ok (0, w) :=
  ⟨C116_help [.apart 'o' ['x'], .flag 'h'] (by simp [Given.Fits, alphabet]) (by simp) w,
    C116_missing [.apart 'o' ['x']] (by simp [Given.Fits, alphabet]) (by simp) (Or.inl (by simp [Given.means])) w,
    C116_zone [.apart 'i' ['a'], .apart 'o' ['x'], .apart 'z' ['3', '1']] (by simp [Given.Fits, alphabet]) (by simp [Given.means])
      ['a'] ['x'] ['3'] '1' ⟨[], _, [.apart 'o' ['x'], .apart 'z' ['3', '1']], rfl, rfl, by simp [Given.means]⟩
      ⟨[.apart 'i' ['a']], _, [.apart 'z' ['3', '1']], rfl, rfl, by simp [Given.means]⟩ (by simp)
      ⟨[.apart 'i' ['a'], .apart 'o' ['x']], _, [], rfl, rfl, by simp⟩ (Or.inl (by decide)) w,
    (C116_unknown_refuted [] (by simp) 'v' (by decide) [['-', 'h']] w).trans
      (C116_help [.flag 'h'] (by simp [Given.Fits, alphabet]) (by simp) w)⟩

end Verif.KmlMain
