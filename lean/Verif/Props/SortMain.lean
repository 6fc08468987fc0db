import Verif.Flow.SortMain
import Verif.Props.ConcatTool
import Verif.Props.SortTool

/-!
C101: the programs that sort and check, from the command line to the files on disk and the verdicts.
-/

namespace Verif.Options
open Verif.Params Verif.Flow
open Verif.Life (Name)

/-! ### Options -/

/-- A part of a command line: an option without a value, one with its value in the next argument or in the same, other words. -/
inductive Given where
  | flag (c : Char)
  | apart (c : Char) (v : Name)
  | joined (c : Char) (v : Name)
  | word (v : Name)

/-- How it is written. -/
def Given.words : Given → List Name
  | .flag c => [['-', c]]
  | .apart c v => [['-', c], v]
  | .joined c v => ['-' :: c :: v]
  | .word v => [v]

/-- The program knows the option; other words do not look like one. -/
def Given.Fits (spec : Spec) : Given → Prop
  | .flag c => spec c = some false
  | .apart c _ => spec c = some true
  | .joined c v => spec c = some true ∧ v ≠ []
  | .word v => v.head? ≠ some '-'

/-- The options that a program should know: those with a value and those without. -/
def alphabet (vals flags : List Char) : Spec := fun c => if c ∈ vals then some true else if c ∈ flags then some false else none

/-- What is meant. -/
def Given.means : Given → Option (Char × Name)
  | .flag c => some (c, [])
  | .apart c v => some (c, v)
  | .joined c v => some (c, v)
  | .word _ => none

/-- Known options before the rest of a command line. -/
theorem getopt_append (spec : Spec) (hdash : spec '-' = none) (l : List Given) (h : ∀ g ∈ l, g.Fits spec)
    (r : List Name) : getopt spec (l.flatMap Given.words ++ r) = l.filterMap Given.means ++ getopt spec r := by
  induction l with
  | nil => rfl
  | cons g l ih =>
    have ih := ih fun g hg => h g (by simp [hg])
    have hg := h g (by simp)
    rw [List.flatMap_cons, List.append_assoc]
    cases g with
    | flag c =>
      have hg : spec c = some false := hg
      have hc : c ≠ '-' := by rintro rfl; rw [hdash] at hg; cases hg
      show getopt spec (['-', c] :: (l.flatMap Given.words ++ r)) = _
      conv_lhs => unfold getopt
      rw [if_neg (by simpa using hc)]
      simp [letters, hg, ih, Given.means]
    | apart c v =>
      have hg : spec c = some true := hg
      have hc : c ≠ '-' := by rintro rfl; rw [hdash] at hg; cases hg
      show getopt spec (['-', c] :: v :: (l.flatMap Given.words ++ r)) = _
      conv_lhs => unfold getopt
      rw [if_neg (by simpa using hc)]
      simp [letters, hg, ih, Given.means]
    | joined c v =>
      obtain ⟨hg, hv⟩ : spec c = some true ∧ v ≠ [] := hg
      have hc : c ≠ '-' := by rintro rfl; rw [hdash] at hg; cases hg
      show getopt spec (('-' :: c :: v) :: (l.flatMap Given.words ++ r)) = _
      conv_lhs => unfold getopt
      rw [if_neg (by simp [hc])]
      simp [letters, hg, ih, Given.means, hv]
    | word v =>
      have hg : v.head? ≠ some '-' := hg
      show getopt spec (v :: (l.flatMap Given.words ++ r)) = _
      conv_lhs => unfold getopt
      rw [if_neg (by rintro rfl; simp at hg)]
      split
      · simp at hg
      · rw [ih]; rfl

/-- **C101**. A command line of known options, each with its value in the next or in the same argument and in any order, and of other
words gives these options with these values, for every string of options. -/
theorem C101_options (spec : Spec) (hdash : spec '-' = none) (l : List Given) (h : ∀ g ∈ l, g.Fits spec) :
    getopt spec (l.flatMap Given.words) = l.filterMap Given.means := by
  have := getopt_append spec hdash l h []
  rw [List.append_nil] at this
  rw [this, show getopt spec [] = [] from rfl, List.append_nil]

/-- What letters without values mean: each its option, an unknown one a question mark. -/
def each (spec : Spec) (fs : List Char) : List (Char × Name) := fs.map fun f => (if spec f = none then '?' else f, [])

theorem letters_each (spec : Spec) (c : Char) (hc : spec c = some true) (v : Name) : ∀ fs : List Char, (∀ f ∈ fs, spec f ≠ some true) →
    letters spec fs = (each spec fs, none) ∧ letters spec (fs ++ [c]) = (each spec fs, some c) ∧
    (v ≠ [] → letters spec (fs ++ c :: v) = (each spec fs ++ [(c, v)], none))
  | [], _ => by
    refine ⟨rfl, ?_, fun hv => ?_⟩
    · simp [letters, hc, each]
    · simp [letters, hc, each, hv]
  | f :: fs, h => by
    obtain ⟨h1, h2, h3⟩ := letters_each spec c hc v fs fun x hx => h x (by simp [hx])
    have hf := h f (by simp)
    refine ⟨?_, ?_, fun hv => ?_⟩
    · unfold letters
      rcases hs : spec f with _ | b
      · simp [h1, each, hs]
      · cases b
        · simp [h1, each, hs]
        · exact absurd hs hf
    · rw [List.cons_append]
      unfold letters
      rcases hs : spec f with _ | b
      · simp [h2, each, hs]
      · cases b
        · simp [h2, each, hs]
        · exact absurd hs hf
    · rw [List.cons_append]
      unfold letters
      rcases hs : spec f with _ | b
      · simp [h3 hv, each, hs]
      · cases b
        · simp [h3 hv, each, hs]
        · exact absurd hs hf

/-- **C101**. Several letters in one argument: each counts, unknown ones give a question mark; the last may have its value in the same
argument or in the next one, without which it gives a question mark; nothing counts after two dashes. -/
theorem C101_letters (spec : Spec) (fs : List Char) (hfs : ∀ f ∈ fs, spec f ≠ some true) (hdash : fs.head? ≠ some '-')
    (c : Char) (hc : spec c = some true) (hcd : c ≠ '-') (v : Name) (l : List Name) :
    (fs ≠ [] → getopt spec (('-' :: fs) :: l) = each spec fs ++ getopt spec l) ∧
    getopt spec (('-' :: fs ++ [c]) :: v :: l) = each spec fs ++ (c, v) :: getopt spec l ∧
    (v ≠ [] → getopt spec (('-' :: fs ++ c :: v) :: l) = each spec fs ++ (c, v) :: getopt spec l) ∧
    getopt spec ['-' :: fs ++ [c]] = each spec fs ++ [('?', [])] ∧
    getopt spec (['-', '-'] :: l) = [] := by
  obtain ⟨h1, h2, h3⟩ := letters_each spec c hc v fs hfs
  have dash : ∀ x : List Char, x.head? = some c → '-' :: fs ++ x ≠ ['-', '-'] := by
    intro x hx h
    rw [List.cons_append, List.cons.injEq] at h
    cases fs with
    | nil => simp only [List.nil_append] at h; rw [h.2] at hx; exact hcd (by simpa using hx.symm)
    | cons f fs => simp only [List.cons_append, List.cons.injEq] at h; exact hdash (by simp [h.2.1])
  refine ⟨fun hne => ?_, ?_, fun hv => ?_, ?_, ?_⟩
  · obtain ⟨f, fs', rfl⟩ := List.exists_cons_of_ne_nil hne
    conv_lhs => unfold getopt
    rw [if_neg (by intro h; simp only [List.cons.injEq, true_and] at h; exact hdash (by simp [h.1]))]
    simp only [h1]
  · obtain ⟨f, r, e⟩ := List.exists_cons_of_ne_nil (show fs ++ [c] ≠ [] by simp)
    have := dash [c] rfl
    rw [List.cons_append, e] at this ⊢
    conv_lhs => unfold getopt
    rw [if_neg this]
    rw [e] at h2
    simp only [h2]
  · obtain ⟨f, r, e⟩ := List.exists_cons_of_ne_nil (show fs ++ c :: v ≠ [] by simp)
    have := dash (c :: v) rfl
    have h3 := h3 hv
    rw [List.cons_append, e] at this ⊢
    conv_lhs => unfold getopt
    rw [if_neg this]
    rw [e] at h3
    simp only [h3, List.append_assoc, List.singleton_append]
  · obtain ⟨f, r, e⟩ := List.exists_cons_of_ne_nil (show fs ++ [c] ≠ [] by simp)
    have := dash [c] rfl
    rw [List.cons_append, e] at this ⊢
    conv_lhs => unfold getopt
    rw [if_neg this]
    rw [e] at h2
    simp only [h2]
  · conv_lhs => unfold getopt
    rw [if_pos rfl]

/-- `verifysort -dxt40`: the unknown letter gives a question mark, the value is taken. -/
example : getopt SortMain.verifySpec ["-dxt40".toList, "-i".toList] = [('d', []), ('?', []), ('t', "40".toList), ('?', [])] := by decide

/-! ### Numbers -/

theorem decimal_isDigit {n : Nat} : ∀ c ∈ decimal n, c.isDigit = true := by
  intro c hc
  unfold decimal at hc
  rw [Nat.toList_repr] at hc
  exact Nat.isDigit_of_mem_toDigits (by decide) (by decide) hc

theorem decimal_ne (n : Nat) : decimal n ≠ [] := by
  unfold decimal
  rw [Nat.toList_repr]
  exact Nat.toDigits_ne_nil

theorem take_digits {n : Nat} {r : Name} (hr : ∀ c, r.head? = some c → c.isDigit = false) :
    (decimal n ++ r).takeWhile Char.isDigit = decimal n := by
  rw [List.takeWhile_append_of_pos decimal_isDigit]
  cases r with
  | nil => simp
  | cons c r => rw [List.takeWhile_cons, hr c rfl]; simp

theorem value_digits (n : Nat) : Nat.ofDigitChars 10 (decimal n) 0 = n := by
  unfold decimal
  rw [Nat.toList_repr, Nat.ofDigitChars_ten_toDigits]

theorem digit_plain {c : Char} (h : c.isDigit = true) : c ≠ '-' ∧ c ≠ '+' ∧ isSpace c = false := by
  unfold Char.isDigit at h
  simp only [ge_iff_le, Bool.and_eq_true, decide_eq_true_eq] at h
  refine ⟨by rintro rfl; revert h; decide, by rintro rfl; revert h; decide, ?_⟩
  unfold isSpace
  rw [decide_eq_false_iff_not]
  rintro (rfl | h')
  · revert h; decide
  · have h1 := UInt32.le_iff_toNat_le.1 h.1
    have h2 : c.toNat = c.val.toNat := rfl
    rw [← h2] at h1
    have h3 : '0'.val.toNat = 48 := rfl
    simp only [List.mem_cons, List.not_mem_nil, or_false] at h'
    omega

/-- **C101**. `std::stoul` of blanks, the digits of a number of 64 bits and something that is not a digit is the number. -/
theorem C101_number (n : Nat) (hn : n < 2 ^ 64) (b r : Name) (hb : ∀ c ∈ b, isSpace c = true)
    (hr : ∀ c, r.head? = some c → c.isDigit = false) : stoul (b ++ decimal n ++ r) = .ok n := by
  obtain ⟨c, l, hc⟩ := List.exists_cons_of_ne_nil (decimal_ne n)
  obtain ⟨p1, p2, p3⟩ := digit_plain (decimal_isDigit c (by rw [hc]; simp))
  have hd : (b ++ decimal n ++ r).dropWhile isSpace = decimal n ++ r := by
    rw [List.append_assoc, List.dropWhile_append_of_pos hb, hc, List.cons_append, List.dropWhile_cons, p3]
    simp
  have hh : (decimal n ++ r).head? = some c := by rw [hc]; rfl
  unfold stoul
  simp only [hd, hh]
  have hs : (if some c = some '-' ∨ some c = some '+' then (decimal n ++ r).tail else decimal n ++ r) = decimal n ++ r :=
    if_neg (by simp [p1, p2])
  simp only [hs, take_digits hr]
  rw [if_neg (decimal_ne n), value_digits, if_neg (by omega), if_neg (by simp [p1])]

end Verif.Options

namespace Verif.SortMain
open Verif.Files hiding alike
open Verif.Params Verif.Flow Verif.Sort Verif.ConcatTool Verif.Options Verif.FP Verif.Scalar
open Verif.Life (Name isSegy defaultMsg)
open Verif.Extremes (be16 be32)

/-! ### The options of the programs -/

/-- An option of `sort`. -/
inductive Arg where
  | i (v : Name)
  | o (v : Name)
  | t (n : Nat)

def Arg.given : Arg → Given
  | .i v => .apart 'i' v
  | .o v => .apart 'o' v
  | .t n => .apart 't' (decimal n)

def Arg.i? : Arg → Option Name | .i v => some v | _ => none
def Arg.o? : Arg → Option Name | .o v => some v | _ => none
def Arg.t? : Arg → Option Nat | .t n => some n | _ => none

theorem stoul_decimal {n : Nat} (hn : n < 2 ^ 64) : stoul (decimal n) = .ok n := by
  have := C101_number n hn [] [] (by simp) (by simp)
  rwa [List.nil_append, List.append_nil] at this

/-- **C101**. The options of `sort` in any order: of each the last counts. -/
theorem C101_sort_options (l : List Arg) (hl : ∀ n, Arg.t n ∈ l → n < 2 ^ 64) :
    sortParse (l.flatMap fun a => a.given.words) = .ok ⟨(l.filterMap Arg.i?).getLast?.getD [], (l.filterMap Arg.o?).getLast?.getD [],
      (l.filterMap Arg.t?).getLast?.getD 35⟩ := by
  have e : getopt sortSpec (l.flatMap fun a => a.given.words) = (l.map Arg.given).filterMap Given.means := by
    rw [← C101_options sortSpec (by decide) (l.map Arg.given), List.flatMap_map]
    intro g hg
    obtain ⟨a, -, rfl⟩ := List.mem_map.1 hg
    cases a <;> rfl
  unfold sortParse
  rw [e]
  have key : ∀ (l : List Arg) (_ : ∀ n, Arg.t n ∈ l → n < 2 ^ 64) (x : Opts),
      ((l.map Arg.given).filterMap Given.means).foldlM sortOption x = .ok ⟨(l.filterMap Arg.i?).getLast?.getD x.name1,
        (l.filterMap Arg.o?).getLast?.getD x.name2, (l.filterMap Arg.t?).getLast?.getD x.type⟩ := by
    intro l
    induction l with
    | nil => intro _ x; rfl
    | cons a l ih =>
      intro hl x
      have ih := ih fun n hn => hl n (by simp [hn])
      cases a with
      | i v =>
        show ((Res.ok { x with name1 := v } : Res Opts) >>= fun s => ((l.map Arg.given).filterMap Given.means).foldlM sortOption s) = _
        rw [Res.ok_bind, ih]
        simp [Arg.i?, Arg.o?, Arg.t?, List.getLast?_cons]
      | o v =>
        show ((Res.ok { x with name2 := v } : Res Opts) >>= fun s => ((l.map Arg.given).filterMap Given.means).foldlM sortOption s) = _
        rw [Res.ok_bind, ih]
        simp [Arg.i?, Arg.o?, Arg.t?, List.getLast?_cons]
      | t n =>
        show ((stoul (decimal n) >>= fun t => (Res.ok { x with type := t } : Res Opts)) >>=
          fun s => ((l.map Arg.given).filterMap Given.means).foldlM sortOption s) = _
        rw [stoul_decimal (hl n (by simp)), Res.ok_bind, Res.ok_bind, ih]
        simp [Arg.i?, Arg.o?, Arg.t?, List.getLast?_cons]
  exact key l hl {}

/-- **C101**. The options of `verifysort` in any order: of each the last counts; `-o` and `-d` are passed over. -/
theorem C101_verify_options (l : List (Arg ⊕ Unit)) (hl : ∀ n, Sum.inl (Arg.t n) ∈ l → n < 2 ^ 64) :
    verifyParse (l.flatMap fun a => match a with | .inl a => a.given.words | .inr _ => (Given.flag 'd').words) =
      .ok ⟨((l.filterMap Sum.getLeft?).filterMap Arg.i?).getLast?.getD [], [], ((l.filterMap Sum.getLeft?).filterMap Arg.t?).getLast?.getD 35⟩ := by
  let giv : Arg ⊕ Unit → Given := fun a => match a with | .inl a => a.given | .inr _ => .flag 'd'
  have e : getopt verifySpec (l.flatMap fun a => match a with | .inl a => a.given.words | .inr _ => (Given.flag 'd').words) =
      (l.map giv).filterMap Given.means := by
    rw [← C101_options verifySpec (by decide) (l.map giv), List.flatMap_map]
    · congr 1
      refine List.flatMap_congr fun a _ => ?_
      rcases a with a | a <;> rfl
    · intro g hg
      obtain ⟨a, -, rfl⟩ := List.mem_map.1 hg
      rcases a with a | a
      · cases a <;> rfl
      · rfl
  unfold verifyParse
  rw [e]
  have key : ∀ (l : List (Arg ⊕ Unit)) (_ : ∀ n, Sum.inl (Arg.t n) ∈ l → n < 2 ^ 64) (x : Opts),
      ((l.map giv).filterMap Given.means).foldlM verifyOption x =
        .ok ⟨((l.filterMap Sum.getLeft?).filterMap Arg.i?).getLast?.getD x.name1, x.name2,
          ((l.filterMap Sum.getLeft?).filterMap Arg.t?).getLast?.getD x.type⟩ := by
    intro l
    induction l with
    | nil => intro _ x; rfl
    | cons a l ih =>
      intro hl x
      have ih := ih fun n hn => hl n (by simp [hn])
      rcases a with a | a
      · cases a with
        | i v =>
          show ((Res.ok { x with name1 := v } : Res Opts) >>= fun s => ((l.map giv).filterMap Given.means).foldlM verifyOption s) = _
          rw [Res.ok_bind, ih]
          simp [Arg.i?, Arg.t?, List.getLast?_cons]
        | o v =>
          show ((Res.ok x : Res Opts) >>= fun s => ((l.map giv).filterMap Given.means).foldlM verifyOption s) = _
          rw [Res.ok_bind, ih]
          simp [Arg.i?, Arg.t?]
        | t n =>
          show ((stoul (decimal n) >>= fun t => (Res.ok { x with type := t } : Res Opts)) >>=
            fun s => ((l.map giv).filterMap Given.means).foldlM verifyOption s) = _
          rw [stoul_decimal (hl n (by simp)), Res.ok_bind, Res.ok_bind, ih]
          simp [Arg.i?, Arg.t?, List.getLast?_cons]
      · show ((Res.ok x : Res Opts) >>= fun s => ((l.map giv).filterMap Given.means).foldlM verifyOption s) = _
        rw [Res.ok_bind, ih]
        rfl
  exact key l hl {}

theorem verify_options (n : Name) (t : Nat) (ht : t < 2 ^ 64) :
    verifyParse ["-i".toList, n, "-t".toList, decimal t] = .ok ⟨n, [], t⟩ :=
  C101_verify_options [.inl (.i n), .inl (.t t)] (by simpa using ht)

/-- The last of two names counts, and `-d` does not matter. -/
example : verifyParse ["-d".toList, "-i".toList, "a".toList, "-o".toList, "b".toList, "-i".toList, "c".toList] = .ok ⟨"c".toList, [], 35⟩ :=
  C101_verify_options [.inr (), .inl (.i "a".toList), .inl (.o "b".toList), .inl (.i "c".toList)] (by simp)

/-! ### The files -/

theorem writeGroups_spec (run : Kind → Disk → Res Disk) (outfix : Name) (ins : List Name) (infos : List Info) (name : Kind → Name)
    (hname : ∀ k, name k = outName outfix k (infos.filter fun i => kind i = k).length) (Good : Kind → Disk → Prop) :
    ∀ (ks : List Kind), (∀ k ∈ ks, name k ∉ ins ∧ ∀ out, ∃ out', run k out = .ok out' ∧ Good k out') →
      (ks.map name).Nodup → ∀ w : World, ∃ w', writeGroups run outfix ins infos ks w = .ok w' ∧
        (∀ k ∈ ks, ∃ d, w' (name k) = some d ∧ Good k d) ∧ ∀ x, x ∉ ks.map name → w' x = w x := by
  intro ks
  induction ks with
  | nil => intro _ _ w; exact ⟨w, rfl, by simp, fun _ _ => rfl⟩
  | cons k ks ih =>
    intro h hnd w
    rw [List.map_cons, List.nodup_cons] at hnd
    obtain ⟨h1, h2⟩ := h k (by simp)
    obtain ⟨out, e, g⟩ := h2 ((w (name k)).getD ⟨0, fun _ => 0#8⟩)
    obtain ⟨w', e', g', o'⟩ := ih (fun j hj => h j (by simp [hj])) hnd.2 (Function.update w (name k) (some out))
    refine ⟨w', ?_, ?_, ?_⟩
    · unfold writeGroups
      simp only [← hname]
      rw [if_neg h1, e, Res.ok_bind, e']
    · intro j hj
      rcases List.mem_cons.1 hj with rfl | hj
      · exact ⟨out, by rw [o' _ hnd.1, Function.update_self], g⟩
      · exact g' j hj
    · intro x hx
      rw [List.map_cons, List.mem_cons, not_or] at hx
      rw [o' x hx.2, Function.update_of_ne hx.1]

variable {w : World} {ins : List Name} {disk : Name → Disk} {info : Name → Info}

theorem groups_spec (run : Kind → Disk → Res Disk) (o : Name) (h : Fit w ins disk info)
    (hone : ∀ n ∈ ins, ∀ m ∈ ins, (alike info ins n).length = 1 → (alike info ins m).length = 1 → n = m)
    (hno : ∀ n ∈ ins, target o info ins n ∉ ins) (Good : Kind → Disk → Prop)
    (hgood : ∀ n ∈ ins, ∀ out, ∃ out', run (kind (info n)) out = .ok out' ∧ Good (kind (info n)) out') :
    ∃ w', writeGroups run o ins (ins.map info) (kinds (ins.map info)) w = .ok w' ∧
      (∀ n ∈ ins, ∃ d, w' (target o info ins n) = some d ∧ Good (kind (info n)) d) ∧
      ∀ x, (∀ n ∈ ins, x ≠ target o info ins n) → w' x = w x := by
  let name : Kind → Name := fun k => outName o k ((ins.map info).filter fun i => kind i = k).length
  have hk : ∀ k ∈ kinds (ins.map info), name k ∉ ins ∧ ∀ out, ∃ out', run k out = .ok out' ∧ Good k out' := by
    intro k hk
    obtain ⟨n, hn, rfl⟩ := (mem_kinds k).1 hk
    refine ⟨?_, hgood n hn⟩
    have := hno n hn
    rwa [target_eq] at this
  have hnd : ((kinds (ins.map info)).map name).Nodup := by
    refine List.Nodup.map_on ?_ (kinds_nodup _)
    intro k hk k' hk' e
    obtain ⟨n, hn, rfl⟩ := (mem_kinds k).1 hk
    obtain ⟨m, hm, rfl⟩ := (mem_kinds k').1 hk'
    rcases outName_inj (h.given hn) (h.given hm) e with ⟨e1, e2⟩ | e
    · rw [count_alike] at e1 e2
      rw [hone n hn m hm e1 e2]
    · exact e
  obtain ⟨w', e, g, off⟩ := writeGroups_spec run o ins (ins.map info) name (fun _ => rfl) Good _ hk hnd w
  refine ⟨w', e, ?_, ?_⟩
  · intro n hn
    rw [target_eq]
    exact g _ ((mem_kinds _).2 ⟨n, hn, rfl⟩)
  · intro x hx
    refine off x fun hx' => ?_
    obtain ⟨k, hk, rfl⟩ := List.mem_map.1 hx'
    obtain ⟨n, hn, rfl⟩ := (mem_kinds k).1 hk
    exact hx n hn (target_eq o n).symm

/-! ### C101 -/

/-- A sorted file: the traces of the files `ms`, each once (`src` says for each where it is from), in the order of the sort type. -/
structure Sorted (o : OffFn) (ty : SortType) (disk : Name → Disk) (info : Name → Info) (ms : List Name) (ns N : Nat) (inc : ℚ) (d : Disk)
    (src : List (Nat × Nat)) : Prop where
  size : d.size = 3600 + N * (240 + 4 * ns)
  opens : openRead d = .ok ⟨ns, N, inc, 5#16, CharEnc.readText (shown (defaultMsg.map Char.toNat))⟩
  each : src.Perm (allTraces (ms.map fun m => (info m).nt))
  order : (src.map (traceOf (ms.map disk) ns)).Pairwise fun a b => getComp o ty b a = false
  kept : ∀ (p c k : Nat), src[p]? = some (c, k) → ∃ m, ms[c]? = some m ∧ Kept ns (disk m) k d p

/-- There is one process and at least three traces, or the files have equally many traces and every process at least four. -/
def Enough (P : Nat) (info : Name → Info) (ms : List Name) : Prop :=
  (P = 1 ∧ 3 ≤ (ms.map fun m => (info m).nt).sum) ∨ ∃ k, (∀ m ∈ ms, (info m).nt = k) ∧ 4 ≤ ms.length * (k / P)

theorem msg_small : ∀ x ∈ defaultMsg.map Char.toNat, x < 256 := by decide +kernel

theorem job {o : OffFn} {ty : SortType} {srt : List Rec → List Rec} (hsrt : IsSort (fun a b => getComp o ty a.tr b.tr) srt)
    {srtp : List (Nat × Nat) → List (Nat × Nat)} (hsrtp : IsSort pairLt srtp) {idx : List Nat → List Nat} (hidx : IsSortIndex idx)
    {sched : List Chunk → List Chunk} (hs : ∀ l, (sched l).Perm l) {P : Nat} (hP : 0 < P) {code : ℚ → Int}
    (hcode : Function.Injective code) (h : Fit w ins disk info) {n : Name} (hn : n ∈ ins)
    (hnum : (total info ins n + 1) * (alike info ins n).length < 2 ^ 63) (hmany : Enough P info (alike info ins n)) :
    Job o ty srt srtp idx sched P code (defaultMsg.map Char.toNat) (ins.map disk) ConcatTool.infoD (info n).ns (info n).inc
      ((alike info ins n).map disk) (total info ins n) where
  hsrt := hsrt
  hsrtp := hsrtp
  hidx := hidx
  hsched := hs
  hP := hP
  hcode := hcode
  hmsg := msg_small
  hopen := by
    intro d hd
    obtain ⟨m, hm, rfl⟩ := List.mem_map.1 hd
    rw [h.infoD hm]; exact h.opens m hm
  hsize := by
    intro d hd
    obtain ⟨m, hm, rfl⟩ := List.mem_map.1 hd
    exact h.size m hm
  h0 := (h.few n hn).1
  h1 := (h.few n hn).2
  hinc := h.pos n hn
  hgrp := (h.group n).symm
  hne := by
    intro e
    rw [List.map_eq_nil_iff] at e
    have := self_alike (info := info) hn
    rw [e] at this
    simp at this
  hfmt := by
    intro d hd
    obtain ⟨m, hm, rfl⟩ := List.mem_map.1 hd
    have hm := List.mem_of_mem_filter hm
    rw [h.infoD hm]; exact h.ieee m hm
  hN := (h.sum n).symm
  hsz := h.fits n hn
  hnum := by rw [List.length_map]; exact hnum
  hmany := by
    rcases hmany with ⟨e, g⟩ | ⟨k, g1, g2⟩
    · exact .inl ⟨e, g⟩
    · refine .inr ⟨k, ?_, by rw [List.length_map]; exact g2⟩
      intro d hd
      obtain ⟨m, hm, rfl⟩ := List.mem_map.1 hd
      rw [h.infoD (List.mem_of_mem_filter hm)]
      exact g1 m hm

/-- One group: how it is sorted does not depend on what was in the file, and the check agrees. -/
theorem group_sorted {o : OffFn} {ty : SortType} {srt : List Rec → List Rec} {srtp : List (Nat × Nat) → List (Nat × Nat)}
    {idx : List Nat → List Nat} {sched : List Chunk → List Chunk} {P : Nat} {code : ℚ → Int} (h : Fit w ins disk info) {n : Name}
    (j : Job o ty srt srtp idx sched P code (defaultMsg.map Char.toNat) (ins.map disk) ConcatTool.infoD (info n).ns (info n).inc
      ((alike info ins n).map disk) (total info ins n)) (dflt : Rec) :
    ∃ (n0 : Nat) (src : List (Nat × Nat)), ∀ out, ∃ out', (∀ fuel, n0 ≤ fuel → sortSet srt srtp dflt fuel idx sched P code
        (defaultMsg.map Char.toNat) (ins.map disk) ((info n).ns, code (info n).inc) out = .ok out') ∧
      Sorted o ty disk info (alike info ins n) (info n).ns (total info ins n) (info n).inc out' src ∧
      ((∀ m ∈ alike info ins n, ∀ k, k < (info m).nt →
        Usable (be16 (disk m) (info n).ns k 71) ∧ 0 ≤ (be16 (disk m) (info n).ns k 71).toInt) →
        ∀ P' r, r < P' → verifySort o ty P' r out' = .ok true) := by
  obtain ⟨n0, src, hsrc⟩ := C79_sorted_partial j dflt
  refine ⟨n0, src, fun out => ?_⟩
  obtain ⟨out', e, g1, g2, g3, g4, g5⟩ := hsrc out
  refine ⟨out', e, ⟨g1, g2, ?_, g4, ?_⟩, fun hu P' r hr => ?_⟩
  · have : ((alike info ins n).map disk).map (fun d => (ConcatTool.infoD d).nt) = (alike info ins n).map fun m => (info m).nt := by
      rw [List.map_map]
      apply List.map_congr_left
      intro m hm
      simp only [Function.comp, h.infoD (List.mem_of_mem_filter hm)]
    rwa [this] at g3
  · intro p c k hp
    obtain ⟨d, e1, e2⟩ := g5 p c k hp
    rw [List.getElem?_map, Option.map_eq_some_iff] at e1
    obtain ⟨m, e1, rfl⟩ := e1
    exact ⟨m, e1, e2⟩
  · obtain ⟨n1, o1, e1, v⟩ := C79_verify_partial j dflt (by
      intro d hd k hk
      obtain ⟨m, hm, rfl⟩ := List.mem_map.1 hd
      rw [h.infoD (List.mem_of_mem_filter hm)] at hk
      exact hu m hm k hk) out
    have a := e (max n0 n1) (le_max_left _ _)
    rw [e1 (max n0 n1) (le_max_right _ _), Res.ok.injEq] at a
    rw [← a]
    exact v P' r hr

/-- The files written for a set sorted kind by kind, under names with any prefix. -/
theorem sort_core (o : OffFn) (srt : (Rec → Rec → Bool) → List Rec → List Rec)
    (srtp : List (Nat × Nat) → List (Nat × Nat)) (hsrtp : IsSort pairLt srtp) (dflt : Rec) (idx : List Nat → List Nat)
    (hidx : IsSortIndex idx) (sched : List Chunk → List Chunk) (hs : ∀ l, (sched l).Perm l) (P : Nat) (hP : 0 < P)
    (code : ℚ → Int) (hcode : Function.Injective code) (b : Name) (ty : Nat)
    (hty : ty < 2 ^ 64)
    (hsrt : IsSort (fun a b => getComp o ty a.tr b.tr) (srt fun a b => getComp o ty a.tr b.tr))
    (h : Fit w ins disk info)
    (hone : ∀ n ∈ ins, ∀ m ∈ ins, (alike info ins n).length = 1 → (alike info ins m).length = 1 → n = m)
    (hno : ∀ n ∈ ins, target b info ins n ∉ ins)
    (hnum : ∀ n ∈ ins, (total info ins n + 1) * (alike info ins n).length < 2 ^ 63)
    (hmany : ∀ n ∈ ins, Enough P info (alike info ins n)) :
    ∃ n0, ∀ fuel, n0 ≤ fuel → ∃ w', writeGroups (fun k out => sortSet (srt fun a b => getComp o ty a.tr b.tr) srtp
        dflt fuel idx sched P code (defaultMsg.map Char.toNat) (ins.map disk) (k.1, code k.2) out) b ins (ins.map info)
        (kinds (ins.map info)) w = .ok w' ∧
      (∀ n ∈ ins, ∃ d src, w' (target b info ins n) = some d ∧
        Sorted o ty disk info (alike info ins n) (info n).ns (total info ins n) (info n).inc d src ∧
        ((∀ m ∈ alike info ins n, ∀ k, k < (info m).nt →
          Usable (be16 (disk m) (info n).ns k 71) ∧ 0 ≤ (be16 (disk m) (info n).ns k 71).toInt) → ∀ P',
          verifyMain o P' ["-i".toList, target b info ins n, "-t".toList, decimal ty] w' = .ok (List.replicate P' true))) ∧
      ∀ x, (∀ n ∈ ins, x ≠ target b info ins n) → w' x = w x := by
  have hg : ∀ n : Name, ∃ (n0 : Nat), n ∈ ins → ∃ src : List (Nat × Nat), ∀ out, ∃ out', (∀ fuel, n0 ≤ fuel →
      sortSet (srt fun a b => getComp o ty a.tr b.tr) srtp dflt fuel idx sched P code (defaultMsg.map Char.toNat) (ins.map disk)
        ((info n).ns, code (info n).inc) out = .ok out') ∧
      Sorted o ty disk info (alike info ins n) (info n).ns (total info ins n) (info n).inc out' src ∧
      ((∀ m ∈ alike info ins n, ∀ k, k < (info m).nt →
        Usable (be16 (disk m) (info n).ns k 71) ∧ 0 ≤ (be16 (disk m) (info n).ns k 71).toInt) →
        ∀ P' r, r < P' → verifySort o ty P' r out' = .ok true) := by
    intro n
    by_cases hn : n ∈ ins
    · obtain ⟨n0, src, h'⟩ := group_sorted h (job hsrt hsrtp hidx hs hP hcode h hn (hnum n hn) (hmany n hn)) dflt
      exact ⟨n0, fun _ => ⟨src, h'⟩⟩
    · exact ⟨0, fun h => absurd h hn⟩
  choose n0 hg using hg
  refine ⟨(ins.map n0).sum, fun fuel hf => ?_⟩
  have hf' : ∀ n ∈ ins, n0 n ≤ fuel := fun n hn => le_trans (List.le_sum_of_mem (List.mem_map_of_mem hn)) hf
  let Good : Kind → Disk → Prop := fun k d => ∀ n ∈ ins, kind (info n) = k → ∃ src : List (Nat × Nat),
    Sorted o ty disk info (alike info ins n) (info n).ns (total info ins n) (info n).inc d src ∧
      ((∀ m ∈ alike info ins n, ∀ k, k < (info m).nt →
        Usable (be16 (disk m) (info n).ns k 71) ∧ 0 ≤ (be16 (disk m) (info n).ns k 71).toInt) →
        ∀ P' r, r < P' → verifySort o ty P' r d = .ok true)
  obtain ⟨w', e, g, off⟩ := groups_spec (w := w) (fun k out => sortSet (srt fun a b => getComp o ty a.tr b.tr) srtp dflt fuel idx sched P code
      (defaultMsg.map Char.toNat) (ins.map disk) (k.1, code k.2) out) b h hone hno Good (fun n hn out => by
    obtain ⟨src, hsrc⟩ := hg n hn
    obtain ⟨out', e, g1, g2⟩ := hsrc out
    refine ⟨out', e fuel (hf' n hn), fun m hm em => ⟨src, ?_⟩⟩
    have e1 : (info m).ns = (info n).ns := congrArg Prod.fst em
    have e2 : (info m).inc = (info n).inc := congrArg Prod.snd em
    have ea : alike info ins m = alike info ins n := by unfold alike; rw [e1, e2]
    have et : total info ins m = total info ins n := by unfold total; rw [ea]
    rw [ea, et, e1, e2]
    exact ⟨g1, g2⟩)
  refine ⟨w', ?_, fun n hn => ?_, off⟩
  · exact e
  · obtain ⟨d, e1, e2⟩ := g n hn
    obtain ⟨src, e3, e4⟩ := e2 n hn rfl
    refine ⟨d, src, e1, e3, fun hu P' => ?_⟩
    have hne : target b info ins n ≠ [] := by
      unfold target
      split <;> simp
    unfold verifyMain
    rw [verify_options _ _ hty, Res.ok_bind]
    dsimp only
    rw [if_neg hne, e1, Option.getD_some, collect_ok (g := fun _ => true) fun r hr => e4 hu P' r (List.mem_range.1 hr)]
    simp

/-- **C101** (partial). For all arguments, files, processes, results of `std::sort`, orders of the writes and contents of the outputs
before: `sort` with an input pattern, an output prefix and a number for the type leaves, for each input, in the file named after
its samples and interval the traces of all inputs of this kind, each once, in the order of the type; and `verifysort` of this
file with the same number writes `Success` on all processes, however many. No other file changes.

Missing: as in `C79_sorted_partial` and `C100_files_partial`; types other than 35 to 43 (`C101_type_refuted`), other text after a
number (`C101_text_refuted`), patterns without SEG-Y files (`C101_ending_refuted`). -/
theorem C101_sort_partial (o : OffFn) (srt : (Rec → Rec → Bool) → List Rec → List Rec)
    (srtp : List (Nat × Nat) → List (Nat × Nat)) (hsrtp : IsSort pairLt srtp) (dflt : Rec) (idx : List Nat → List Nat)
    (hidx : IsSortIndex idx) (sched : List Chunk → List Chunk) (hs : ∀ l, (sched l).Perm l) (P : Nat) (hP : 0 < P)
    (code : ℚ → Int) (hcode : Function.Injective code) (glob : Name → List Name) (argv : List Name) (a b : Name) (ty : Nat)
    (hargv : sortParse argv = .ok ⟨a, b, ty⟩) (hty : ty < 2 ^ 64) (ha : a ≠ []) (hb : b ≠ []) (hglob : glob a ≠ [])
    (hsrt : IsSort (fun a b => getComp o ty a.tr b.tr) (srt fun a b => getComp o ty a.tr b.tr))
    (hins : ins = (glob a).filter isSegy) (hne : ins ≠ []) (h : Fit w ins disk info)
    (hone : ∀ n ∈ ins, ∀ m ∈ ins, (alike info ins n).length = 1 → (alike info ins m).length = 1 → n = m)
    (hno : ∀ n ∈ ins, target b info ins n ∉ ins)
    (hnum : ∀ n ∈ ins, (total info ins n + 1) * (alike info ins n).length < 2 ^ 63)
    (hmany : ∀ n ∈ ins, Enough P info (alike info ins n)) :
    ∃ n0, ∀ fuel, n0 ≤ fuel → ∃ w', sortMain o srt srtp dflt fuel idx sched P code glob argv w = .ok w' ∧
      (∀ n ∈ ins, ∃ d src, w' (target b info ins n) = some d ∧
        Sorted o ty disk info (alike info ins n) (info n).ns (total info ins n) (info n).inc d src ∧
        ((∀ m ∈ alike info ins n, ∀ k, k < (info m).nt →
          Usable (be16 (disk m) (info n).ns k 71) ∧ 0 ≤ (be16 (disk m) (info n).ns k 71).toInt) → ∀ P',
          verifyMain o P' ["-i".toList, target b info ins n, "-t".toList, decimal ty] w' = .ok (List.replicate P' true))) ∧
      ∀ x, (∀ n ∈ ins, x ≠ target b info ins n) → w' x = w x := by
  obtain ⟨n0, hc⟩ := sort_core o srt srtp hsrtp dflt idx hidx sched hs P hP code hcode b ty hty hsrt h hone hno hnum hmany
  refine ⟨n0, fun fuel hf => ?_⟩
  obtain ⟨w', e, g⟩ := hc fuel hf
  refine ⟨w', ?_, g⟩
  unfold sortMain
  rw [hargv, Res.ok_bind]
  dsimp only
  rw [if_neg (by tauto), if_neg hglob, ← hins, h.collected.1, Res.ok_bind, h.collected.2, Res.ok_bind, if_neg (by simpa using hne)]
  exact e

/-- Types without a number of their own are `SrcRcv`. -/
theorem getComp_other (o : OffFn) {ty : SortType} (h : ty < 36 ∨ 43 < ty) : getComp o ty = getComp o 35 := by
  have h' : ∀ k ∈ [36, 37, 38, 39, 40, 41, 42, 43], ty ≠ k := by
    intro k hk e
    subst e
    simp only [List.mem_cons, List.not_mem_nil, or_false] at hk
    rcases hk with rfl | rfl | rfl | rfl | rfl | rfl | rfl | rfl <;> revert h <;> decide
  simp only [List.forall_mem_cons] at h'
  obtain ⟨h1, h2, h3, h4, h5, h6, h7, h8, -⟩ := h'
  unfold getComp
  rw [if_neg h1, if_neg h2, if_neg h3, if_neg h4, if_neg h5, if_neg h6, if_neg h7, if_neg h8, ite_self]
  rfl

/-- **C101** fails for the type: any number that is not one of the types, such as the 0 to 8 that count them, is taken without a
message, sorts as no type at all does, by source and receiver, and the check with this number agrees. -/
theorem C101_type_refuted (o : OffFn) (srt : (Rec → Rec → Bool) → List Rec → List Rec)
    (srtp : List (Nat × Nat) → List (Nat × Nat)) (dflt : Rec) (fuel : Nat) (idx : List Nat → List Nat)
    (sched : List Chunk → List Chunk) (P : Nat) (code : ℚ → Int) (glob : Name → List Name) (a b : Name) (n : Nat)
    (hn : n < 36 ∨ 43 < n) (h64 : n < 2 ^ 64) (w : World) :
    sortMain o srt srtp dflt fuel idx sched P code glob ["-i".toList, a, "-o".toList, b, "-t".toList, decimal n] w =
      sortMain o srt srtp dflt fuel idx sched P code glob ["-i".toList, a, "-o".toList, b] w ∧
    verifyMain o P ["-i".toList, a, "-t".toList, decimal n] w = verifyMain o P ["-i".toList, a, "-t".toList, decimal 35] w := by
  constructor
  · have e1 : sortParse ["-i".toList, a, "-o".toList, b, "-t".toList, decimal n] = .ok ⟨a, b, n⟩ :=
      C101_sort_options [.i a, .o b, .t n] (by simpa using h64)
    have e2 : sortParse ["-i".toList, a, "-o".toList, b] = .ok ⟨a, b, 35⟩ := C101_sort_options [.i a, .o b] (by simp)
    unfold sortMain
    rw [e1, e2, Res.ok_bind, Res.ok_bind]
    dsimp only
    rw [getComp_other o hn]
  · unfold verifyMain
    rw [verify_options a n h64, verify_options a 35 (by omega), Res.ok_bind, Res.ok_bind]
    dsimp only
    have : ∀ r d, verifySort o n P r d = verifySort o 35 P r d := by
      intro r d
      unfold verifySort
      rw [getComp_other o hn]
    simp only [this]

/-- **C101** fails for what is not a number: blanks before it and text after it that does not begin with a digit are taken without a
message. -/
theorem C101_text_refuted (o : OffFn) (srt : (Rec → Rec → Bool) → List Rec → List Rec)
    (srtp : List (Nat × Nat) → List (Nat × Nat)) (dflt : Rec) (fuel : Nat) (idx : List Nat → List Nat)
    (sched : List Chunk → List Chunk) (P : Nat) (code : ℚ → Int) (glob : Name → List Name) (a b : Name) (n : Nat) (h64 : n < 2 ^ 64)
    (s r : Name) (hs : ∀ c ∈ s, isSpace c) (hr : ∀ c, r.head? = some c → c.isDigit = false) (w : World) :
    sortMain o srt srtp dflt fuel idx sched P code glob ["-i".toList, a, "-o".toList, b, "-t".toList, s ++ decimal n ++ r] w =
      sortMain o srt srtp dflt fuel idx sched P code glob ["-i".toList, a, "-o".toList, b, "-t".toList, decimal n] w := by
  have e : ∀ v, stoul v = .ok n → sortParse ["-i".toList, a, "-o".toList, b, "-t".toList, v] = .ok ⟨a, b, n⟩ := by
    intro v hv
    have e := Options.C101_options sortSpec (by decide) [.apart 'i' a, .apart 'o' b, .apart 't' v] (by
      intro g hg
      simp only [List.mem_cons, List.not_mem_nil, or_false] at hg
      rcases hg with rfl | rfl | rfl <;> rfl)
    unfold sortParse
    rw [show ["-i".toList, a, "-o".toList, b, "-t".toList, v] =
      [Given.apart 'i' a, .apart 'o' b, .apart 't' v].flatMap Given.words from rfl, e]
    show ((Res.ok ⟨a, b, 35⟩ : Res Opts) >>= fun s => (stoul v >>= fun t => (Res.ok { s with type := t } : Res Opts)) >>=
      fun s => Res.ok s) = _
    rw [Res.ok_bind, hv, Res.ok_bind, Res.ok_bind]
  unfold sortMain
  rw [e _ (C101_number n h64 s r hs hr), e _ (stoul_decimal h64)]

/-- **C101** fails for files that are not there: `verifysort` of one, or of a file too short for SEG-Y, writes `Success` on all
processes, whatever the type. -/
theorem C101_missing_refuted (o : OffFn) (P : Nat) (argv : List Name) (x y : Name) (ty : Nat) (hx : x ≠ [])
    (hargv : verifyParse argv = .ok ⟨x, y, ty⟩) (w : World) (hw : ∀ d, w x = some d → d.size < 3600) :
    verifyMain o P argv w = .ok (List.replicate P true) := by
  unfold verifyMain
  rw [hargv, Res.ok_bind]
  dsimp only
  rw [if_neg hx]
  generalize hd : (w x).getD ⟨0, fun _ => 0#8⟩ = d
  have hs : d.size < 3600 := by
    subst hd
    cases e : w x with
    | none => simp
    | some d => exact hw d e
  have ho : openRead d = .ok ⟨0, 0, 0, 5#16, []⟩ := by
    unfold openRead
    rw [if_neg (by show ¬ 3600 ≤ d.size; omega)]
  rw [collect_ok (g := fun _ => true)]
  · simp
  · intro r hr
    have hr := List.mem_range.1 hr
    unfold verifySort
    rw [ho, Res.ok_bind]
    dsimp only
    have e0 : Decomp.sz 0 P r = 0 := by have := Decomp.sz_le 0 P r (by omega) hr; have := Decomp.off_le 0 P (r + 1) (by omega) hr; rw [Decomp.off_succ] at this; omega
    have e1 : Decomp.off 0 P r = 0 := by have := Decomp.off_le 0 P r (by omega) (by omega); omega
    rw [Decomp.blockDecomposition_eq (by omega) hr (by omega), Res.ok_bind, Extremes.ctor_default, Res.ok_bind]
    dsimp only
    rw [e0, e1]
    have hc : clamp 0 0 0 = 0 := rfl
    have hsm : Small 0 (.start 0) (clamp 0 0 0) 0 := clamp_small (by decide) (by omega) (by omega)
    rw [hc] at hsm
    obtain ⟨t', p', e1, -, -, -, e5⟩ := read_spec dbl asInt (fun _ => rfl) 0 (.start 0) 0
      none (some (Params.mk 0 Extremes.dr 0)) 0 d 0 hsm (fun i j hij hj => by omega) (fun i hi => by omega) (by simp)
      (fun q hq => by cases hq; exact ⟨dr_items.rd (mk_wf _ dr_items.reach.inv _) rfl, Nat.le_refl _⟩) (by simp)
    obtain ⟨q, rfl, g⟩ := e5 _ rfl
    unfold readTrace
    rw [hc, e1]
    rfl

/-- **C101**, the verdict. On one process `verifysort` reports success exactly if the traces of the file, as their headers say and
numbered as in the file, are in the order of the type. -/
theorem C101_verdict (o : OffFn) (argv : List Name) (x y : Name) (ty : Nat) (hx : x ≠ []) (hargv : verifyParse argv = .ok ⟨x, y, ty⟩)
    (w : World) (d : Disk) (hw : w x = some d) (i : Info) (hd : openRead d = .ok i)
    (hns : i.ns ≤ 32767) (hsz : 3600 + i.nt * (240 + 4 * i.ns) < 2 ^ 63) (hle : 3600 + i.nt * (240 + 4 * i.ns) ≤ d.size) :
    ∃ b, verifyMain o 1 argv w = .ok [b] ∧
      (b = true ↔ ((List.range i.nt).map fun k => trIn d i.ns k k).Pairwise fun a b => getComp o ty a b = true) := by
  obtain ⟨b, e, h⟩ := C79_verdict o ty 1 0 (by omega) d i hd hns hsz hle
  refine ⟨b, ?_, ?_⟩
  · unfold verifyMain
    rw [hargv, Res.ok_bind]
    dsimp only
    rw [if_neg hx, hw, Option.getD_some, show List.range 1 = [0] from rfl]
    show (verifySort o ty 1 0 d >>= fun b => collect _ [] >>= fun l => Res.ok (b :: l)) = _
    rw [e]
    rfl
  · rw [h]
    have e0 : Decomp.off i.nt 1 0 = 0 := by simp [Decomp.off]
    have e1 : Decomp.sz i.nt 1 0 = i.nt := by simp [Decomp.sz, Nat.mod_one]
    rw [e0, e1, List.range_eq_range']

/-- **C101** fails for the check on several processes: no process looks at the traces of another. On at least as many processes as
the file has traces, `verifysort` reports success on all of them, in whatever order the traces are. -/
theorem C101_boundary_refuted (o : OffFn) (P : Nat) (argv : List Name) (x y : Name) (ty : Nat) (hx : x ≠ [])
    (hargv : verifyParse argv = .ok ⟨x, y, ty⟩) (w : World) (d : Disk) (hw : w x = some d) (i : Info) (hd : openRead d = .ok i)
    (hns : i.ns ≤ 32767) (hsz : 3600 + i.nt * (240 + 4 * i.ns) < 2 ^ 63) (hle : 3600 + i.nt * (240 + 4 * i.ns) ≤ d.size)
    (hP : i.nt ≤ P) : verifyMain o P argv w = .ok (List.replicate P true) := by
  unfold verifyMain
  rw [hargv, Res.ok_bind]
  dsimp only
  rw [if_neg hx, hw, Option.getD_some, collect_ok (g := fun _ => true)]
  · simp
  · intro r hr
    have hr := List.mem_range.1 hr
    obtain ⟨b, e, h⟩ := C79_verdict o ty P r hr d i hd hns hsz hle
    rw [e]
    congr 1
    rw [h]
    have : Decomp.sz i.nt P r ≤ 1 := by
      unfold Decomp.sz
      rcases Nat.lt_or_eq_of_le hP with h | h
      · rw [Nat.div_eq_of_lt h]; split <;> omega
      · rw [h, Nat.div_self (by omega), Nat.mod_self, if_neg (by omega)]
    generalize Decomp.sz i.nt P r = m at this
    have : m = 0 ∨ m = 1 := by omega
    rcases this with rfl | rfl <;> simp

/-- **C101** fails for patterns: without a matching name that ends in `segy` or `sgy` the program takes the first of no files. -/
theorem C101_ending_refuted (o : OffFn) (srt : (Rec → Rec → Bool) → List Rec → List Rec)
    (srtp : List (Nat × Nat) → List (Nat × Nat)) (dflt : Rec) (fuel : Nat) (idx : List Nat → List Nat)
    (sched : List Chunk → List Chunk) (P : Nat) (code : ℚ → Int) (glob : Name → List Name) (argv : List Name) (a b : Name) (ty : Nat)
    (hargv : sortParse argv = .ok ⟨a, b, ty⟩) (ha : a ≠ []) (hb : b ≠ []) (hglob : glob a ≠ [])
    (hend : ∀ n ∈ glob a, ¬ isSegy n) (w : World) :
    sortMain o srt srtp dflt fuel idx sched P code glob argv w = .ub := by
  have e : (glob a).filter (fun n => isSegy n) = [] := List.filter_eq_nil_iff.2 (by simpa using hend)
  unfold sortMain
  rw [hargv, Res.ok_bind]
  dsimp only
  rw [if_neg (by tauto), if_neg hglob, e]
  rfl

/-! ### Cases -/

/-- Two files of eight traces; in the second all coordinates are zero. -/
def twoDisk (n : Name) : Disk := if n = "s.segy".toList then recFile 8 exWhole else recFile 8 fun _ => 0#8

def twoWorld : World := fun n => if n = "s.segy".toList ∨ n = "t.sgy".toList then some (twoDisk n) else none

def twoIns : List Name := ["s.segy".toList, "t.sgy".toList]

def twoInfo (s t : List Nat) (n : Name) : Info := ⟨1, 8, exInc false, 5#16, if n = "s.segy".toList then s else t⟩

theorem two_alike (s t : List Nat) (n : Name) : alike (twoInfo s t) twoIns n = twoIns :=
  List.filter_eq_self.2 fun _ _ => by simp [twoInfo]

theorem two_total (s t : List Nat) (n : Name) : total (twoInfo s t) twoIns n = 16 := by
  unfold total
  rw [two_alike]
  rfl

theorem two_fit : ∃ s t, Fit twoWorld twoIns twoDisk (twoInfo s t) := by
  obtain ⟨s, hs⟩ := recFile_open (n := 8) exWhole (by decide)
  obtain ⟨t, ht⟩ := recFile_open (n := 8) (fun _ => 0#8) (by decide)
  have hsz : ∀ n, (twoDisk n).size < 2 ^ 63 := by
    intro n
    have e : (twoDisk n).size = Layout.plainSz 8 1 := by unfold twoDisk; split <;> rfl
    rw [e]; decide
  refine ⟨s, t, ?_, ?_, fun n _ => hsz n, fun _ _ => ⟨Nat.one_pos, by show 1 ≤ 32767; omega⟩, fun _ _ => exInc_pos, fun _ _ => by show 5#16 ≠ 1#16; decide, ?_⟩
  · intro n hn
    unfold twoWorld
    rw [if_pos (by simpa [twoIns] using hn)]
  · intro n _
    unfold twoDisk twoInfo
    by_cases e : n = "s.segy".toList
    · rw [if_pos e, if_pos e, hs]
    · rw [if_neg e, if_neg e, ht]
  · intro n _
    rw [two_total]
    show 3600 + 16 * (240 + 4 * 1) < 2 ^ 63
    omega

/-- They are sorted on two processes with type 36, the writes in reverse order; the file passes the check on three. The inputs stay. -/
example : ∃ n0, ∀ fuel, n0 ≤ fuel → ∃ w', sortMain Sort.off (fun c => keySort c) (keySort pairLt) ⟨⟨0, 0, 0, 0, 0, 0, 0, 0⟩, 0, []⟩ fuel
      insIndex List.reverse 2 (fun q : ℚ => (Encodable.encode q : Int)) (fun _ => "notes".toList :: twoIns)
      ["-t".toList, decimal 36, "-i".toList, "*".toList, "-o".toList, "out".toList] twoWorld = .ok w' ∧
    (∃ d, w' ("out1_".toList ++ fixed6 (exInc false) ++ ".segy".toList) = some d ∧ d.size = 7504) ∧
    verifyMain Sort.off 3 ["-i".toList, "out1_".toList ++ fixed6 (exInc false) ++ ".segy".toList, "-t".toList, decimal 36] w' =
      .ok [true, true, true] ∧
    w' "s.segy".toList = some (recFile 8 exWhole) := by
  obtain ⟨s, t, hf⟩ := two_fit
  have ht : ∀ n, target "out".toList (twoInfo s t) twoIns n = "out1_".toList ++ fixed6 (exInc false) ++ ".segy".toList := by
    intro n
    unfold target
    rw [two_alike, if_neg (by decide)]
    show _ ++ decimal 1 ++ ['_'] ++ fixed6 (exInc false) ++ _ = _
    generalize fixed6 (exInc false) = x
    rfl
  have hlong : ∀ n, ∀ m ∈ twoIns, target "out".toList (twoInfo s t) twoIns n ≠ m := by
    intro n m hm e
    rw [ht] at e
    have := congrArg List.head? e
    revert this
    revert m
    generalize fixed6 (exInc false) = x
    intro m hm _
    simp only [twoIns, List.mem_cons, List.not_mem_nil, or_false] at hm
    rcases hm with rfl | rfl <;> simp
  obtain ⟨n0, h⟩ := C101_sort_partial Sort.off (fun c => keySort c) (keySort pairLt) pair_sorts ⟨⟨0, 0, 0, 0, 0, 0, 0, 0⟩, 0, []⟩ insIndex
    insIndex_sorts List.reverse (fun l => List.reverse_perm l) 2 (by omega) _ exCode (fun _ => "notes".toList :: twoIns)
    ["-t".toList, decimal 36, "-i".toList, "*".toList, "-o".toList, "out".toList] "*".toList "out".toList 36
    (C101_sort_options [.t 36, .i "*".toList, .o "out".toList] (by simp)) (by omega) (by decide) (by decide) (by simp)
    (comp_sorts Sort.off 36) (ins := twoIns) (by decide) (by decide) hf
    (fun n _ m _ e _ => by rw [two_alike] at e; exact absurd e (by decide)) (fun n _ hm => hlong n _ hm rfl)
    (fun n _ => by rw [two_total, two_alike]; show (16 + 1) * 2 < 2 ^ 63; omega)
    (fun n _ => by rw [two_alike]; exact .inr ⟨8, fun _ _ => rfl, by decide⟩)
  refine ⟨n0, fun fuel hfuel => ?_⟩
  obtain ⟨w', e1, e2, e3⟩ := h fuel hfuel
  obtain ⟨d, src, d1, d2, d3⟩ := e2 "s.segy".toList (by decide)
  rw [ht] at d1 d3
  refine ⟨w', e1, ⟨d, d1, ?_⟩, ?_, ?_⟩
  · rw [d2.size, two_total]; rfl
  · refine d3 ?_ 3
    intro m _ k hk
    have hk : k < 8 := hk
    have : be16 (twoDisk m) 1 k 71 = 0#16 := by
      unfold twoDisk
      split
      · exact (by decide +kernel : ∀ k ∈ List.range 8, be16 (recFile 8 exWhole) 1 k 71 = 0#16) k (List.mem_range.2 hk)
      · exact (by decide +kernel : ∀ k ∈ List.range 8, be16 (recFile 8 fun _ => 0#8) 1 k 71 = 0#16) k (List.mem_range.2 hk)
    show Usable (be16 (twoDisk m) 1 k 71) ∧ 0 ≤ (be16 (twoDisk m) 1 k 71).toInt
    rw [this]
    exact ⟨Or.inr rfl, by decide⟩
  · rw [e3 _ fun n _ e => hlong n _ (by decide) e.symm]
    unfold twoWorld twoDisk
    rw [if_pos (.inl rfl), if_pos rfl]

/-- `-t 1`, meant as the second type, sorts by source and receiver. -/
example : sortMain Sort.off (fun c => keySort c) (keySort pairLt) ⟨⟨0, 0, 0, 0, 0, 0, 0, 0⟩, 0, []⟩ 9
      insIndex List.reverse 2 (fun q : ℚ => (Encodable.encode q : Int)) (fun _ => twoIns)
      ["-i".toList, "*".toList, "-o".toList, "out".toList, "-t".toList, "1".toList] twoWorld =
    sortMain Sort.off (fun c => keySort c) (keySort pairLt) ⟨⟨0, 0, 0, 0, 0, 0, 0, 0⟩, 0, []⟩ 9
      insIndex List.reverse 2 (fun q : ℚ => (Encodable.encode q : Int)) (fun _ => twoIns)
      ["-i".toList, "*".toList, "-o".toList, "out".toList] twoWorld :=
  (C101_type_refuted Sort.off (fun c => keySort c) (keySort pairLt) ⟨⟨0, 0, 0, 0, 0, 0, 0, 0⟩, 0, []⟩ 9 insIndex List.reverse 2
    (fun q : ℚ => (Encodable.encode q : Int)) (fun _ => twoIns) "*".toList "out".toList 1 (by decide) (by omega) twoWorld).1

/-- `-t " 36th"` is `-t 36`. -/
example : sortMain Sort.off (fun c => keySort c) (keySort pairLt) ⟨⟨0, 0, 0, 0, 0, 0, 0, 0⟩, 0, []⟩ 9
      insIndex List.reverse 2 (fun q : ℚ => (Encodable.encode q : Int)) (fun _ => twoIns)
      ["-i".toList, "*".toList, "-o".toList, "out".toList, "-t".toList, " 36th".toList] twoWorld =
    sortMain Sort.off (fun c => keySort c) (keySort pairLt) ⟨⟨0, 0, 0, 0, 0, 0, 0, 0⟩, 0, []⟩ 9
      insIndex List.reverse 2 (fun q : ℚ => (Encodable.encode q : Int)) (fun _ => twoIns)
      ["-i".toList, "*".toList, "-o".toList, "out".toList, "-t".toList, "36".toList] twoWorld :=
  C101_text_refuted Sort.off (fun c => keySort c) (keySort pairLt) ⟨⟨0, 0, 0, 0, 0, 0, 0, 0⟩, 0, []⟩ 9 insIndex List.reverse 2
    (fun q : ℚ => (Encodable.encode q : Int)) (fun _ => twoIns) "*".toList "out".toList 36 (by omega) " ".toList "th".toList
    (by decide) (by decide) twoWorld

/-- There is no file `u.segy`. -/
example : verifyMain Sort.off 2 ["-t".toList, "36".toList, "-iu.segy".toList, "-d".toList] twoWorld = .ok [true, true] :=
  C101_missing_refuted Sort.off 2 _ "u.segy".toList [] 36 (by decide) (by decide) twoWorld (by
    intro d h
    unfold twoWorld at h
    rw [if_neg (by decide)] at h
    cases h)

/-- The eight traces of `s.segy` are not in order; on eight processes `verifysort` reports success, on one it does not. -/
example : verifyMain Sort.off 8 ["-i".toList, "s.segy".toList] twoWorld = .ok (List.replicate 8 true) ∧
    verifyMain Sort.off 1 ["-i".toList, "s.segy".toList] twoWorld = .ok [false] := by
  obtain ⟨t, ht⟩ := recFile_open (n := 8) exWhole (by decide)
  have hw : twoWorld "s.segy".toList = some (recFile 8 exWhole) := by
    unfold twoWorld twoDisk
    rw [if_pos (.inl rfl), if_pos rfl]
  have hz : (recFile 8 exWhole).size = 5552 := rfl
  have hle : 3600 + 8 * (240 + 4 * 1) ≤ (recFile 8 exWhole).size := by rw [hz]
  have h1 : 1 ≤ 32767 := by omega
  have h2 : 3600 + 8 * (240 + 4 * 1) < 2 ^ 63 := by omega
  constructor
  · exact C101_boundary_refuted Sort.off 8 _ "s.segy".toList [] 35 (by decide) (by decide) twoWorld _ hw _ ht h1 h2
      hle (Nat.le_refl _)
  · obtain ⟨b, e, h⟩ := C101_verdict Sort.off ["-i".toList, "s.segy".toList] "s.segy".toList [] 35 (by decide) (by decide) twoWorld _ hw _ ht
      h1 h2 hle
    rw [e]
    cases b
    · rfl
    · have h := h.1 rfl
      rw [List.pairwise_map] at h
      have := (List.pairwise_iff_getElem.1 h) 0 1 (by simp) (by simp) (by omega)
      exact absurd this (by
        show ¬ getComp Sort.off 35 (trIn (recFile 8 exWhole) 1 0 0) (trIn (recFile 8 exWhole) 1 1 1) = true
        decide +kernel)

/-- Only `notes` matches. -/
example : sortMain Sort.off (fun c => keySort c) (keySort pairLt) ⟨⟨0, 0, 0, 0, 0, 0, 0, 0⟩, 0, []⟩ 9
      insIndex List.reverse 2 (fun q : ℚ => (Encodable.encode q : Int)) (fun _ => ["notes".toList])
      ["-i".toList, "n*".toList, "-o".toList, "out".toList] twoWorld = .ub :=
  C101_ending_refuted Sort.off _ _ _ 9 insIndex List.reverse 2 _ _ _ "n*".toList "out".toList 35 (by decide) (by decide) (by decide)
    (by decide) (by decide) twoWorld

/-- `C101_options` for options of `verifysort` in several forms. -/
example : getopt verifySpec ["-d".toList, "x".toList, "-ifile".toList, "-t".toList, "-1".toList] =
    [('d', []), ('i', "file".toList), ('t', "-1".toList)] :=
  C101_options verifySpec (by decide) [.flag 'd', .word "x".toList, .joined 'i' "file".toList, .apart 't' "-1".toList] (by
    simp only [List.forall_mem_cons]
    exact ⟨rfl, by show "x".toList.head? ≠ _; decide, ⟨rfl, by decide⟩, rfl, by simp⟩)

end Verif.SortMain
