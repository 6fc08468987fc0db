import Verif.Util.KmlTool
import Verif.Props.Kml
import Verif.Props.MinMaxTool
import Verif.Props.Output
import Verif.Props.FourDSingle

/-!
# The program for maps, from the options and files to what a reader of XML finds in the output (C98)
-/

namespace Verif.KmlTool
open Verif.Util Verif.Extremes Verif.Files Verif.Params Verif.Ops Verif.Scalar Verif.Life Verif.Endian Verif.Decomp
open Verif.FP Verif.Flow
open Verif.Props (readDecimal read_highPrec C73_text_partial C73_negative_refuted isDouble_zero)

/-! ### A reader of XML -/

/-- Where the reader is: in text, in a tag, in a reference (`&...;`). -/
inductive Mode
  | text | tag | ref
deriving DecidableEq

/-- The state of the reader: the tag or reference and the text so far (last character first), the open elements (innermost
first), and what was found: elements with those around them (innermost first) and the text since their last tag. -/
structure Rd where
  mode : Mode
  cur : List Char
  txt : List Char
  stack : List (List Char)
  out : List (List (List Char) × List Char)

def blank (c : Char) : Bool := c = ' ' || c = '\n' || c = '\t' || c = '\r'

/-- The end of a tag: a declaration, the end of the innermost element, or the start of an element. -/
def finish (r : Rd) : Option Rd :=
  match r.cur.reverse with
  | [] => none
  | '?' :: _ => some { r with mode := .text, cur := [], txt := [] }
  | '/' :: n =>
    match r.stack with
    | [] => none
    | top :: rest => if top = n then some ⟨.text, [], [], rest, (r.stack, r.txt.reverse) :: r.out⟩ else none
  | t => some ⟨.text, [], [], t.takeWhile (fun c => !blank c) :: r.stack, r.out⟩

def entity (n : List Char) : Option Char :=
  if n = ['l', 't'] then some '<' else if n = ['g', 't'] then some '>' else if n = ['a', 'm', 'p'] then some '&'
  else if n = ['a', 'p', 'o', 's'] then some '\'' else if n = ['q', 'u', 'o', 't'] then some '"' else none

/-- One character. Outside of the elements there are only blanks. -/
def step (r : Rd) (c : Char) : Option Rd :=
  match r.mode with
  | .text =>
    if c = '<' then some { r with mode := .tag, cur := [] }
    else if c = '&' then some { r with mode := .ref, cur := [] }
    else if r.stack.isEmpty && !blank c then none
    else some { r with txt := c :: r.txt }
  | .tag => if c = '<' then none else if c = '>' then finish r else some { r with cur := c :: r.cur }
  | .ref =>
    if c = '<' then none
    else if c = ';' then (entity r.cur.reverse).map fun e => { r with mode := .text, cur := [], txt := e :: r.txt }
    else some { r with cur := c :: r.cur }

def run : Rd → List Char → Option Rd
  | r, [] => some r
  | r, c :: s => (step r c).bind fun r => run r s

/-- The elements of a document in the order in which they end; `none` if it is not well-formed. -/
def readXml (s : List Char) : Option (List (List (List Char) × List Char)) :=
  (run ⟨.text, [], [], [], []⟩ s).bind fun r =>
    if r.mode = .text ∧ r.stack = [] then some r.out.reverse else none

/-- The texts of the elements of this kind at this place. -/
def texts (path : List (List Char)) (evs : List (List (List Char) × List Char)) : List (List Char) :=
  evs.filterMap fun e => if e.1 = path then some e.2 else none

/-- The folder of a document. -/
def folder : List (List Char) := [chars% "Folder", chars% "Document", chars% "kml"]

/-- The names of the placemarks. -/
def labels (evs : List (List (List Char) × List Char)) : List (List Char) :=
  texts ([chars% "name", chars% "Placemark"] ++ folder) evs

/-- The names of the folders. -/
def titles (evs : List (List (List Char) × List Char)) : List (List Char) := texts (chars% "name" :: folder) evs

/-- Pieces between separators. -/
def cut (p : Char → Bool) : List Char → List (List Char)
  | [] => [[]]
  | c :: s => if p c then [] :: cut p s else
    match cut p s with
    | [] => [[c]]
    | w :: ws => (c :: w) :: ws

/-- The positions of a text of coordinates: separated by blanks, the coordinates of each by commas. -/
def positions (t : List Char) : List (List (List Char)) := ((cut blank t).filter (· ≠ [])).map (cut (· = ','))

/-- The positions of the lines of the placemarks. -/
def paths (evs : List (List (List Char) × List Char)) : List (List (List (List Char))) :=
  (texts ([chars% "coordinates", chars% "LineString", chars% "Placemark"] ++ folder) evs).map positions

/-! ### The reader on the text written -/

theorem run_append (r : Rd) (s t : List Char) : run r (s ++ t) = (run r s).bind fun r => run r t := by
  induction s generalizing r with
  | nil => rfl
  | cons c s ih =>
    rw [List.cons_append, run, run]
    cases step r c with
    | none => rfl
    | some r' => exact ih r'

/-- Text without markup. -/
def Clean (s : List Char) : Prop := '<' ∉ s ∧ '&' ∉ s

theorem run_clean {s : List Char} (h : Clean s) (cur txt : List Char) (a : List Char) (st : List (List Char))
    (out : List (List (List Char) × List Char)) :
    run ⟨.text, cur, txt, a :: st, out⟩ s = some ⟨.text, cur, s.reverse ++ txt, a :: st, out⟩ := by
  induction s generalizing txt with
  | nil => rfl
  | cons c s ih =>
    obtain ⟨h1, h2⟩ := h
    simp only [List.mem_cons, not_or] at h1 h2
    rw [run, step]
    simp only [if_neg (Ne.symm h1.1), if_neg (Ne.symm h2.1), List.isEmpty_cons, Bool.false_and, Bool.false_eq_true, if_false,
      Option.bind_some]
    rw [ih ⟨h1.2, h2.2⟩, List.reverse_cons, List.append_assoc]
    rfl

set_option maxRecDepth 100000 in
theorem run_head1 : run ⟨.text, [], [], [], []⟩ head1 = some ⟨.text, [], [], chars% "name" :: folder, []⟩ := rfl

/-- What the head of the document holds beside the name of the folder. -/
def headEvs : List (List (List Char) × List Char) :=
  [(chars% "Schema" :: folder, ['\n']), ([chars% "SimpleField", chars% "Schema"] ++ folder, []),
    ([chars% "SimpleField", chars% "Schema"] ++ folder, []), (chars% "Style" :: folder, ['\n']),
    ([chars% "LineStyle", chars% "Style"] ++ folder, ['\n', '\t']),
    ([chars% "width", chars% "LineStyle", chars% "Style"] ++ folder, ['2']),
    ([chars% "color", chars% "LineStyle", chars% "Style"] ++ folder, chars% "ff190cff")]

set_option maxRecDepth 100000 in
theorem run_head2 (txt : List Char) : run ⟨.text, [], txt, chars% "name" :: folder, []⟩ head2 =
    some ⟨.text, [], ['\n', '\n'], folder, headEvs ++ [(chars% "name" :: folder, txt.reverse)]⟩ := rfl

set_option maxRecDepth 100000 in
theorem run_mark1 (txt : List Char) (out : List (List (List Char) × List Char)) : run ⟨.text, [], txt, folder, out⟩ mark1 =
    some ⟨.text, [], [], [chars% "name", chars% "Placemark"] ++ folder, out⟩ := rfl

set_option maxRecDepth 100000 in
theorem run_mark2 (txt : List Char) (out : List (List (List Char) × List Char)) :
    run ⟨.text, [], txt, [chars% "name", chars% "Placemark"] ++ folder, out⟩ mark2 =
    some ⟨.text, [], [], [chars% "SimpleData", chars% "SchemaData", chars% "ExtendedData", chars% "LineString",
      chars% "Placemark"] ++ folder, ([chars% "styleUrl", chars% "Placemark"] ++ folder, chars% "#pathstyle") ::
      ([chars% "name", chars% "Placemark"] ++ folder, txt.reverse) :: out⟩ := rfl

set_option maxRecDepth 100000 in
theorem run_mark3 (txt : List Char) (out : List (List (List Char) × List Char)) :
    run ⟨.text, [], txt, [chars% "SimpleData", chars% "SchemaData", chars% "ExtendedData", chars% "LineString",
      chars% "Placemark"] ++ folder, out⟩ mark3 =
    some ⟨.text, [], chars% "\t\t\t\n", [chars% "coordinates", chars% "LineString", chars% "Placemark"] ++ folder,
      ([chars% "tessellate", chars% "LineString", chars% "Placemark"] ++ folder, ['1']) ::
      ([chars% "ExtendedData", chars% "LineString", chars% "Placemark"] ++ folder, chars% "\n\t\t") ::
      ([chars% "SchemaData", chars% "ExtendedData", chars% "LineString", chars% "Placemark"] ++ folder, chars% "\n\t\t\t") ::
      ([chars% "SimpleData", chars% "SchemaData", chars% "ExtendedData", chars% "LineString", chars% "Placemark"] ++ folder,
        txt.reverse) :: out⟩ := rfl

set_option maxRecDepth 100000 in
theorem run_mark5 (txt : List Char) (out : List (List (List Char) × List Char)) :
    run ⟨.text, [], txt, [chars% "coordinates", chars% "LineString", chars% "Placemark"] ++ folder, out⟩ mark5 =
    some ⟨.text, [], ['\n'], folder, (chars% "Placemark" :: folder, ['\n']) ::
      ([chars% "LineString", chars% "Placemark"] ++ folder, chars% "\n\t") ::
      ([chars% "coordinates", chars% "LineString", chars% "Placemark"] ++ folder, txt.reverse ++ chars% ",0\n\t\t ") ::
      out⟩ := by
  have h : run ⟨.text, [], txt, [chars% "coordinates", chars% "LineString", chars% "Placemark"] ++ folder, out⟩ mark5 =
    some ⟨.text, [], ['\n'], folder, (chars% "Placemark" :: folder, ['\n']) ::
      ([chars% "LineString", chars% "Placemark"] ++ folder, chars% "\n\t") ::
      ([chars% "coordinates", chars% "LineString", chars% "Placemark"] ++ folder, (chars% " \t\t\n0," ++ txt).reverse) ::
      out⟩ := rfl
  rw [h, List.reverse_append]
  rfl

set_option maxRecDepth 100000 in
theorem run_tail1 (txt : List Char) (out : List (List (List Char) × List Char)) :
    run ⟨.text, [], txt, folder, out⟩ tail1 = some ⟨.text, [], [], [], ([chars% "kml"], ['\n']) ::
      ([chars% "Document", chars% "kml"], ['\n']) :: (folder, txt.reverse) :: out⟩ := rfl

/-- The text of the coordinates. -/
def inside (s2 s0 s3 s1 : List Char) : List Char :=
  chars% "\n\t\t\t" ++ (s2 ++ ',' :: s0 ++ mark4 ++ s3 ++ ',' :: s1) ++ chars% ",0\n\t\t "

/-- What a placemark holds, last first. -/
def markEvs (n t : List Char) : List (List (List Char) × List Char) :=
  [(chars% "Placemark" :: folder, ['\n']), ([chars% "LineString", chars% "Placemark"] ++ folder, chars% "\n\t"),
    ([chars% "coordinates", chars% "LineString", chars% "Placemark"] ++ folder, t),
    ([chars% "tessellate", chars% "LineString", chars% "Placemark"] ++ folder, ['1']),
    ([chars% "ExtendedData", chars% "LineString", chars% "Placemark"] ++ folder, chars% "\n\t\t"),
    ([chars% "SchemaData", chars% "ExtendedData", chars% "LineString", chars% "Placemark"] ++ folder, chars% "\n\t\t\t"),
    ([chars% "SimpleData", chars% "SchemaData", chars% "ExtendedData", chars% "LineString", chars% "Placemark"] ++ folder, n),
    ([chars% "styleUrl", chars% "Placemark"] ++ folder, chars% "#pathstyle"),
    ([chars% "name", chars% "Placemark"] ++ folder, n)]

theorem Clean.append {s t : List Char} (hs : Clean s) (ht : Clean t) : Clean (s ++ t) := by
  unfold Clean at *
  simp [hs, ht]

theorem Clean.cons {c : Char} {t : List Char} (h1 : c ≠ '<') (h2 : c ≠ '&') (ht : Clean t) : Clean (c :: t) := by
  unfold Clean at *
  simp [h1.symm, h2.symm, ht]

theorem run_mark {n s2 s0 s3 s1 : List Char} (hn : Clean n) (h2 : Clean s2) (h0 : Clean s0) (h3 : Clean s3) (h1 : Clean s1)
    (txt : List Char) (out : List (List (List Char) × List Char)) :
    run ⟨.text, [], txt, folder, out⟩ (mark1 ++ n ++ mark2 ++ n ++ mark3 ++ s2 ++ ',' :: s0 ++ mark4 ++ s3 ++ ',' :: s1 ++ mark5) =
      some ⟨.text, [], ['\n'], folder, markEvs n (inside s2 s0 s3 s1) ++ out⟩ := by
  have hb : Clean (s2 ++ ',' :: s0 ++ mark4 ++ s3 ++ ',' :: s1) :=
    (((h2.append (h0.cons (by decide) (by decide))).append ⟨by decide, by decide⟩).append h3).append
      (h1.cons (by decide) (by decide))
  have e : mark1 ++ n ++ mark2 ++ n ++ mark3 ++ s2 ++ ',' :: s0 ++ mark4 ++ s3 ++ ',' :: s1 ++ mark5 =
      mark1 ++ (n ++ (mark2 ++ (n ++ (mark3 ++ ((s2 ++ ',' :: s0 ++ mark4 ++ s3 ++ ',' :: s1) ++ mark5))))) := by
    simp only [List.append_assoc]
  rw [e]
  unfold inside
  generalize s2 ++ ',' :: s0 ++ mark4 ++ s3 ++ ',' :: s1 = b at *
  rw [run_append, run_mark1, Option.bind_some, run_append]
  rw [show [chars% "name", chars% "Placemark"] ++ folder = (chars% "name") :: ([chars% "Placemark"] ++ folder) from rfl,
    run_clean hn, Option.bind_some, run_append,
    show (chars% "name") :: ([chars% "Placemark"] ++ folder) = [chars% "name", chars% "Placemark"] ++ folder from rfl,
    run_mark2, Option.bind_some, run_append]
  rw [show [chars% "SimpleData", chars% "SchemaData", chars% "ExtendedData", chars% "LineString",
      chars% "Placemark"] ++ folder = (chars% "SimpleData") :: ([chars% "SchemaData", chars% "ExtendedData", chars% "LineString",
      chars% "Placemark"] ++ folder) from rfl, run_clean hn, Option.bind_some, run_append]
  rw [show (chars% "SimpleData") :: ([chars% "SchemaData", chars% "ExtendedData", chars% "LineString",
      chars% "Placemark"] ++ folder) = [chars% "SimpleData", chars% "SchemaData", chars% "ExtendedData", chars% "LineString",
      chars% "Placemark"] ++ folder from rfl, run_mark3, Option.bind_some, run_append]
  rw [show [chars% "coordinates", chars% "LineString", chars% "Placemark"] ++ folder = (chars% "coordinates") ::
      ([chars% "LineString", chars% "Placemark"] ++ folder) from rfl, run_clean hb, Option.bind_some,
    show (chars% "coordinates") :: ([chars% "LineString", chars% "Placemark"] ++ folder) =
      [chars% "coordinates", chars% "LineString", chars% "Placemark"] ++ folder from rfl, run_mark5]
  simp only [List.reverse_append, List.reverse_reverse, List.append_nil]
  rfl

theorem cut_sep {p : Char → Bool} {c : Char} (h : p c = true) (s : List Char) : cut p (c :: s) = [] :: cut p s := by
  rw [cut, if_pos h]

theorem cut_word {p : Char → Bool} {w : List Char} (h : ∀ c ∈ w, p c = false) {c : Char} (hc : p c = true) (s : List Char) :
    cut p (w ++ c :: s) = w :: cut p s := by
  induction w with
  | nil => exact cut_sep hc s
  | cons a w ih =>
    rw [List.cons_append, cut, if_neg (by simp [h a (by simp)]), ih fun c hc => h c (by simp [hc])]

theorem cut_last {p : Char → Bool} {w : List Char} (h : ∀ c ∈ w, p c = false) : cut p w = [w] := by
  induction w with
  | nil => rfl
  | cons a w ih => rw [cut, if_neg (by simp [h a (by simp)]), ih fun c hc => h c (by simp [hc])]

/-- A number as text: neither blanks nor commas nor markup. -/
def Plain (s : List Char) : Prop := ∀ c ∈ s, c.isDigit = true ∨ c = '-' ∨ c = '.'

theorem Plain.ne {s : List Char} (h : Plain s) {x : Char} (hx : x.isDigit = false) (h1 : x ≠ '-') (h2 : x ≠ '.') : x ∉ s := by
  intro hm
  rcases h x hm with h | h | h
  · rw [hx] at h; exact absurd h (by decide)
  · exact h1 h
  · exact h2 h

theorem Plain.clean {s : List Char} (h : Plain s) : Clean s :=
  ⟨h.ne (by decide) (by decide) (by decide), h.ne (by decide) (by decide) (by decide)⟩

theorem Plain.comma {s : List Char} (h : Plain s) : ∀ c ∈ s, decide (c = ',') = false := fun c hc =>
  decide_eq_false fun e => h.ne (by decide) (by decide) (by decide) (e ▸ hc)

theorem Plain.blank {s : List Char} (h : Plain s) : ∀ c ∈ s, blank c = false := by
  intro c hc
  have h1 : ∀ x : Char, x.isDigit = false → x ≠ '-' → x ≠ '.' → c ≠ x := fun x a b d e => h.ne a b d (e ▸ hc)
  unfold KmlTool.blank
  simp [h1 ' ' (by decide) (by decide) (by decide), h1 '\n' (by decide) (by decide) (by decide),
    h1 '\t' (by decide) (by decide) (by decide), h1 '\r' (by decide) (by decide) (by decide)]

theorem positions_inside {s2 s0 s3 s1 : List Char} (h2 : Plain s2) (h0 : Plain s0) (h3 : Plain s3) (h1 : Plain s1) :
    positions (inside s2 s0 s3 s1) = [[s2, s0, ['0']], [s3, s1, ['0']]] := by
  have hw : ∀ {a b : List Char}, Plain a → Plain b → ∀ c ∈ a ++ ',' :: (b ++ [',', '0']), blank c = false := by
    intro a b ha hb c hc
    simp only [List.mem_append, List.mem_cons, List.not_mem_nil, or_false] at hc
    rcases hc with h | rfl | h | rfl | rfl
    · exact ha.blank c h
    · decide
    · exact hb.blank c h
    · decide
    · decide
  have hp : ∀ {a b : List Char}, Plain a → Plain b → cut (· = ',') (a ++ ',' :: (b ++ [',', '0'])) = [a, b, ['0']] := by
    intro a b ha hb
    rw [cut_word ha.comma (by decide), cut_word hb.comma (by decide)]
    rfl
  have hne : ∀ a b : List Char, a ++ ',' :: b ≠ [] := by simp
  have e : inside s2 s0 s3 s1 = '\n' :: '\t' :: '\t' :: '\t' :: ((s2 ++ ',' :: (s0 ++ [',', '0'])) ++ '\n' :: '\t' :: '\t' ::
      '\t' :: ((s3 ++ ',' :: (s1 ++ [',', '0'])) ++ '\n' :: ['\t', '\t', ' '])) := by
    unfold inside mark4
    simp only [List.append_assoc, List.cons_append, List.nil_append]
  have b1 : blank '\n' = true := by decide
  have b2 : blank '\t' = true := by decide
  unfold positions
  rw [e, cut_sep b1, cut_sep b2, cut_sep b2, cut_sep b2, cut_word (hw h2 h0) b1, cut_sep b2, cut_sep b2, cut_sep b2,
    cut_word (hw h3 h1) b1, show cut blank ['\t', '\t', ' '] = [[], [], [], []] by decide]
  simp only [List.filter_cons, List.filter_nil, ne_eq, not_true_eq_false, decide_false, hne, not_false_eq_true, decide_true,
    Bool.false_eq_true, if_false, if_true, List.map_cons, List.map_nil, hp h2 h0, hp h3 h1]

theorem longText_plain (n : ℤ) : Plain (longText n) := by
  have h : ∀ m, Plain (Nat.toDigits 10 m) := fun m c hc =>
    Or.inl (Nat.isDigit_of_mem_toDigits (b := 10) (by decide) (by decide) hc)
  unfold longText
  split
  · intro c hc
    rcases List.mem_cons.1 hc with rfl | hc
    · exact Or.inr (Or.inl rfl)
    · exact h _ c hc
  · exact h _

theorem highPrec_plain {c : ℚ} {s : List Char} (h : highPrecStr c = .ok s) : Plain s := by
  unfold highPrecStr at h
  split at h
  · rw [Res.ok.injEq] at h
    subst h
    intro c hc
    simp only [List.mem_append, List.mem_cons] at hc
    rcases hc with hc | rfl | hc
    · exact longText_plain _ c hc
    · exact Or.inr (Or.inr rfl)
    · exact longText_plain _ c hc
  · exact absurd h (by simp)

/-! ### The corners -/

/-- The smallest and the largest of the values of `nt` traces. -/
def Extreme (X : Nat → ℚ) (nt : Nat) (lo hi : ℚ) : Prop :=
  (∃ t, t < nt ∧ X t = lo) ∧ (∃ t, t < nt ∧ X t = hi) ∧ ∀ t, t < nt → lo ≤ X t ∧ X t ≤ hi

/-- The box around the sources of a file. -/
def IsBox (d : Disk) (i : Info) (b : Box) : Prop :=
  Extreme (fun t => coord dbl d i.ns t 0) i.nt b.xmin b.xmax ∧ Extreme (fun t => coord dbl d i.ns t 1) i.nt b.ymin b.ymax

/-- A SEG-Y file with traces. -/
structure Segy (d : Disk) (i : Info) : Prop where
  opens : openRead d = .ok i
  size : d.size < 2 ^ 63
  ns0 : 0 < i.ns
  ns1 : i.ns ≤ 32767
  nt0 : 0 < i.nt

theorem Extreme.unique {X : Nat → ℚ} {nt : Nat} {lo hi lo' hi' : ℚ} (h : Extreme X nt lo hi) (h' : Extreme X nt lo' hi') :
    lo = lo' ∧ hi = hi' := by
  obtain ⟨⟨a, a1, a2⟩, ⟨b, b1, b2⟩, c⟩ := h
  obtain ⟨⟨a', a1', a2'⟩, ⟨b', b1', b2'⟩, c'⟩ := h'
  have := c a' a1'; have := c b' b1'; have := c' a a1; have := c' b b1
  constructor <;> linarith

theorem IsBox.unique {d : Disk} {i : Info} {b b' : Box} (h : IsBox d i b) (h' : IsBox d i b') : b = b' := by
  obtain ⟨h1, h2⟩ := h.1.unique h'.1
  obtain ⟨h3, h4⟩ := h.2.unique h'.2
  cases b; cases b'
  simp_all

theorem shares_hold (cv : Conv ℚ ℚ) (hcv : ∀ x, cv.ofF x = x) (cvt : Conv ℚ (BitVec 64))
    (hT : ∀ v, cvt.toT v = v) (P ns nt : Nat) (d : Disk) (hP : 0 < P)
    (h : 3600 + nt * (240 + 4 * ns) < 2 ^ 63) (hd : 0 < nt → 3600 + nt * (240 + 4 * ns) ≤ d.size) :
    ∃ ps, readShares dbl cvt 0 P ns nt d (List.range P) = .ok ps ∧ (∀ s ∈ ps, Held cv (coord dbl d ns) s) ∧
      (∀ s ∈ ps, s.1 + s.2.1 ≤ nt) ∧ ∀ t, t < nt → ∃ s ∈ ps, s.1 ≤ t ∧ t < s.1 + s.2.1 := by
  have hn := nt_lt (ns := ns) h
  obtain ⟨ps, e1, e2, e3⟩ := readShares_spec dbl cv hcv cvt hT 0 P ns nt d hP h hd (List.range P)
    fun r hr => List.mem_range.1 hr
  have hof : ∀ s ∈ ps, ∃ r, r < P ∧ s.1 = off nt P r ∧ s.2.1 = sz nt P r := by
    intro s hs
    have : (s.1, s.2.1) ∈ ps.map (fun s => (s.1, s.2.1)) := List.mem_map.2 ⟨s, hs, rfl⟩
    rw [e3] at this
    obtain ⟨r, hr, he⟩ := List.mem_map.1 this
    rw [Prod.mk.injEq] at he
    exact ⟨r, List.mem_range.1 hr, he.1.symm, he.2.symm⟩
  have hto : ∀ r, r < P → ∃ s ∈ ps, s.1 = off nt P r ∧ s.2.1 = sz nt P r := by
    intro r hr
    have : (off nt P r, sz nt P r) ∈ (List.range P).map fun r => (off nt P r, sz nt P r) :=
      List.mem_map.2 ⟨r, List.mem_range.2 hr, rfl⟩
    rw [← e3] at this
    obtain ⟨s, hs, he⟩ := List.mem_map.1 this
    rw [Prod.mk.injEq] at he
    exact ⟨s, hs, he⟩
  refine ⟨ps, e1, e2, fun s hs => ?_, fun t ht => ?_⟩
  · obtain ⟨r, hr, h1, h2⟩ := hof s hs
    have := off_le nt P (r + 1) hP hr
    rw [off_succ] at this
    omega
  · obtain ⟨l, -, h2, h3, h4⟩ := location_eq hP ht (by omega)
    obtain ⟨s, hs, g1, g2⟩ := hto l.rank h2
    exact ⟨s, hs, by omega, by omega⟩

theorem corners_box (cv : Conv ℚ ℚ) (hcv : ∀ x, cv.ofF x = x) (cvt : Conv ℚ (BitVec 64)) (hT : ∀ v, cvt.toT v = v) (P : Nat)
    (hP : 0 < P) {d : Disk} {i : Info} (hs : Segy d i) : ∃ b, corners cv cvt P d = .ok b ∧ IsBox d i b := by
  obtain ⟨h1, -⟩ := openRead_of hs.opens hs.size hs.ns0 hs.ns1
  have h2 := hs.size
  unfold taddr at h1
  have hn := nt_lt (ns := i.ns) (nt := i.nt) (by unfold taddr; omega)
  obtain ⟨ps, e1, e2, e3, e4⟩ := shares_hold cv hcv cvt hT P i.ns i.nt d hP (by omega) (fun _ => h1)
  obtain ⟨a0, a1, a2, a3, f1, f2, f3, f4, f5, f6, f7⟩ := C77_items_partial dbl cv 0 (20 + 0) (20 + 1) (fun t => coord dbl d i.ns t 0)
    (fun t => coord dbl d i.ns t 1) ps (fun s h => (e2 s h).holding (by omega) (by omega))
    (fun _ _ _ => ⟨dr_abs (by omega), dr_abs (by omega)⟩) i.nt hs.nt0 (by omega) e3 e4
  obtain ⟨b0, b1, b2, b3, g1, -⟩ := C77_items_partial dbl cv 0 (20 + 2) (20 + 3) (fun t => coord dbl d i.ns t 2)
    (fun t => coord dbl d i.ns t 3) ps (fun s h => (e2 s h).holding (by omega) (by omega))
    (fun _ _ _ => ⟨dr_abs (by omega), dr_abs (by omega)⟩) i.nt hs.nt0 (by omega) e3 e4
  refine ⟨⟨a0.val, a1.val, a2.val, a3.val⟩, ?_, ?_, ?_⟩
  · unfold corners
    rw [hs.opens, Res.ok_bind, e1, Res.ok_bind, f1, Res.ok_bind, g1, Res.ok_bind]
  · refine ⟨⟨_, f2.1, f4.symm⟩, ⟨_, f2.2.1, f5.symm⟩, fun t ht => ?_⟩
    show a0.val ≤ _ ∧ _ ≤ a1.val
    rw [f4, f5]
    exact f2.2.2 t ht
  · refine ⟨⟨_, f3.1, f6.symm⟩, ⟨_, f3.2.1, f7.symm⟩, fun t ht => ?_⟩
    show a2.val ≤ _ ∧ _ ≤ a3.val
    rw [f6, f7]
    exact f3.2.2 t ht

/-- Without traces all corners are zero. -/
theorem corners_none (cv : Conv ℚ ℚ) (hcv : ∀ x, cv.ofF x = x) (cvt : Conv ℚ (BitVec 64)) (hT : ∀ v, cvt.toT v = v) (P : Nat)
    (hP : 0 < P) {d : Disk} {i : Info} (ho : openRead d = .ok i) (h0 : i.nt = 0) : corners cv cvt P d = .ok ⟨0, 0, 0, 0⟩ := by
  obtain ⟨ps, e1, e2, e3, -⟩ := shares_hold cv hcv cvt hT P i.ns 0 d hP (by omega) (fun h => absurd h (by omega))
  have hz : ∀ s ∈ ps, s.2.1 = 0 := fun s hs => by have := e3 s hs; omega
  have hm : ∀ a b, a < 6 → b < 6 → metaMinMax dbl cv 0 (20 + a) (20 + b) ps = .ok (List.replicate 4 ⟨0, noTrace⟩) := by
    intro a b ha hb
    have he : ∀ e1 e2 : ℚ × ℚ → ℚ, getCoordMinMax 0 e1 e2 (ps.map fun s => (s.1, (List.range' 0 s.2.1).map fun k =>
        (coord dbl d i.ns (s.1 + k) a, coord dbl d i.ns (s.1 + k) b))) = (⟨0, noTrace⟩, ⟨0, noTrace⟩) := by
      intro e1 e2
      refine (C37_empty 0 e1 e2 _).2 ?_
      intro q hq
      obtain ⟨s, hs', rfl⟩ := List.mem_map.1 hq
      simp only [hz s hs']
      rfl
    unfold metaMinMax
    rw [shares_spec dbl cv 0 ps (fun s h => (e2 s h).holding ha hb) (fun _ _ _ => ⟨dr_abs ha, dr_abs hb⟩), Res.ok_bind]
    unfold Ops.getMinMax
    simp only [he]
    rfl
  unfold corners
  rw [ho, Res.ok_bind, h0, e1, Res.ok_bind, hm 0 1 (by omega) (by omega), Res.ok_bind, hm 2 3 (by omega) (by omega), Res.ok_bind]
  rfl

/-! ### The document -/

/-- All four numbers can be made text. -/
def Fits (b : Box) : Prop := InI64 ⌊b.ymin⌋ ∧ InI64 ⌊b.xmin⌋ ∧ InI64 ⌊b.ymax⌋ ∧ InI64 ⌊b.xmax⌋

/-- The positions are made of the texts of the four numbers. -/
def Line (b : Box) (path : List (List (List Char))) : Prop :=
  ∃ s2 s0 s3 s1, highPrecStr b.ymin = .ok s2 ∧ highPrecStr b.xmin = .ok s0 ∧ highPrecStr b.ymax = .ok s3 ∧
    highPrecStr b.xmax = .ok s1 ∧ path = [[s2, s0, ['0']], [s3, s1, ['0']]]

theorem highPrec_ok {c : ℚ} (h : InI64 ⌊c⌋) : ∃ s, highPrecStr c = .ok s := by
  unfold highPrecStr
  rw [if_pos h]
  exact ⟨_, rfl⟩

theorem texts_append (path : List (List Char)) (a b : List (List (List Char) × List Char)) :
    texts path (a ++ b) = texts path a ++ texts path b := List.filterMap_append ..

theorem labels_mark (n t : List Char) : labels (markEvs n t).reverse = [n] := rfl

theorem paths_mark (n t : List Char) : paths (markEvs n t).reverse = [positions t] := by
  unfold paths
  rw [show texts ([chars% "coordinates", chars% "LineString", chars% "Placemark"] ++ folder) (markEvs n t).reverse = [t] from rfl]
  rfl

theorem addLine_ok (n : Name) {b : Box} (h : Fits b) : ∃ s2 s0 s3 s1, highPrecStr b.ymin = .ok s2 ∧ highPrecStr b.xmin = .ok s0 ∧
    highPrecStr b.ymax = .ok s3 ∧ highPrecStr b.xmax = .ok s1 ∧
    addLine n b = .ok (mark1 ++ n ++ mark2 ++ n ++ mark3 ++ s2 ++ ',' :: s0 ++ mark4 ++ s3 ++ ',' :: s1 ++ mark5) := by
  obtain ⟨s2, e2⟩ := highPrec_ok h.1
  obtain ⟨s0, e0⟩ := highPrec_ok h.2.1
  obtain ⟨s3, e3⟩ := highPrec_ok h.2.2.1
  obtain ⟨s1, e1⟩ := highPrec_ok h.2.2.2
  refine ⟨s2, s0, s3, s1, e2, e0, e3, e1, ?_⟩
  unfold addLine
  rw [e2, Res.ok_bind, e0, Res.ok_bind, e3, Res.ok_bind, e1, Res.ok_bind]

variable {utm : ℚ → ℚ → Name → ℚ × ℚ} {cv : Conv ℚ ℚ} {cvt : Conv ℚ (BitVec 64)} {P : Nat} {fs : Name → Option Disk} {zone : Name}

/-- The corners of all files are known and can be made text. -/
def Usable (utm : ℚ → ℚ → Name → ℚ × ℚ) (cv : Conv ℚ ℚ) (cvt : Conv ℚ (BitVec 64)) (P : Nat) (fs : Name → Option Disk)
    (zone : Name) (n : Name) : Prop := ∃ b, corners cv cvt P (content fs n) = .ok b ∧ Fits (converted utm zone b)

theorem placemarks_ok (names : List Name) (h : ∀ n ∈ names, Usable utm cv cvt P fs zone n) :
    ∃ t, placemarks utm cv cvt P fs zone names = .ok t := by
  induction names with
  | nil => exact ⟨[], rfl⟩
  | cons n names ih =>
    obtain ⟨b, e1, e2⟩ := h n (by simp)
    obtain ⟨s2, s0, s3, s1, -, -, -, -, e3⟩ := addLine_ok n e2
    obtain ⟨t, e4⟩ := ih fun m hm => h m (by simp [hm])
    refine ⟨mark1 ++ n ++ mark2 ++ n ++ mark3 ++ s2 ++ ',' :: s0 ++ mark4 ++ s3 ++ ',' :: s1 ++ mark5 ++ t, ?_⟩
    unfold placemarks
    rw [e1, Res.ok_bind, e3, Res.ok_bind, e4, Res.ok_bind]

theorem placemarks_read (names : List Name) (h : ∀ n ∈ names, Clean n ∧ Usable utm cv cvt P fs zone n) {t : List Char}
    (ht : placemarks utm cv cvt P fs zone names = .ok t) :
    ∃ evs, (∀ txt out, ∃ txt', run ⟨.text, [], txt, folder, out⟩ t = some ⟨.text, [], txt', folder, evs.reverse ++ out⟩) ∧
      labels evs = names ∧ (paths evs).length = names.length ∧ titles evs = [] ∧
      ∀ (j : Nat) n b, names[j]? = some n → corners cv cvt P (content fs n) = .ok b →
        ∃ path, (paths evs)[j]? = some path ∧ Line (converted utm zone b) path := by
  induction names generalizing t with
  | nil =>
    cases ht
    exact ⟨[], fun txt out => ⟨txt, rfl⟩, rfl, rfl, rfl, by simp⟩
  | cons n names ih =>
    obtain ⟨hn, b, e1, e2⟩ := h n (by simp)
    obtain ⟨s2, s0, s3, s1, g2, g0, g3, g1, e3⟩ := addLine_ok n e2
    unfold placemarks at ht
    rw [e1, Res.ok_bind, e3, Res.ok_bind] at ht
    obtain ⟨t', e4, ht⟩ := of_bind ht
    rw [Res.ok.injEq] at ht
    obtain ⟨evs, f1, f2, f3, f5, f4⟩ := ih (fun m hm => h m (by simp [hm])) e4
    have p2 := highPrec_plain g2
    have p0 := highPrec_plain g0
    have p3 := highPrec_plain g3
    have p1 := highPrec_plain g1
    have hp : ∀ a b, paths (a ++ b) = paths a ++ paths b := fun a b => by
      unfold paths; rw [texts_append, List.map_append]
    refine ⟨(markEvs n (inside s2 s0 s3 s1)).reverse ++ evs, ?_, ?_, ?_, ?_, ?_⟩
    · intro txt out
      obtain ⟨txt', f⟩ := f1 ['\n'] (markEvs n (inside s2 s0 s3 s1) ++ out)
      refine ⟨txt', ?_⟩
      rw [← ht, run_append, run_mark hn p2.clean p0.clean p3.clean p1.clean, Option.bind_some, f, List.reverse_append,
        List.reverse_reverse, List.append_assoc]
    · unfold labels at *
      rw [texts_append, f2]
      rfl
    · rw [hp, paths_mark, List.length_append, f3]
      simp [Nat.add_comm]
    · unfold titles at *
      rw [texts_append, f5]
      rfl
    · intro j m c hj hc
      rw [hp, paths_mark]
      cases j with
      | zero =>
        rw [List.getElem?_cons_zero, Option.some.injEq] at hj
        subst hj
        rw [hc, Res.ok.injEq] at e1
        subst e1
        exact ⟨_, rfl, s2, s0, s3, s1, g2, g0, g3, g1, positions_inside p2 p0 p3 p1⟩
      | succ j =>
        rw [List.getElem?_cons_succ] at hj
        obtain ⟨path, k1, k2⟩ := f4 j m c hj hc
        exact ⟨path, by rw [List.singleton_append, List.getElem?_cons_succ]; exact k1, k2⟩

theorem turned {A : Type} (a b c x : A) (e h : List A) :
    (a :: b :: c :: (e.reverse ++ (h ++ [x]))).reverse = [x] ++ h.reverse ++ e ++ [c, b, a] := by simp

theorem read_document {folderName t : List Char} (hf : Clean folderName) {evs : List (List (List Char) × List Char)}
    (h : ∀ txt out, ∃ txt', run ⟨.text, [], txt, folder, out⟩ t = some ⟨.text, [], txt', folder, evs.reverse ++ out⟩) :
    ∃ all, readXml (head1 ++ folderName ++ head2 ++ t ++ tail1) = some all ∧ labels all = labels evs ∧
      paths all = paths evs ∧ titles all = folderName :: titles evs := by
  obtain ⟨txt', e⟩ := h ['\n', '\n'] (headEvs ++ [(chars% "name" :: folder, folderName)])
  have e0 : run ⟨.text, [], [], [], []⟩ (head1 ++ folderName ++ head2 ++ t ++ tail1) = some ⟨.text, [], [], [],
      ([chars% "kml"], ['\n']) :: ([chars% "Document", chars% "kml"], ['\n']) :: (folder, txt'.reverse) ::
        (evs.reverse ++ (headEvs ++ [(chars% "name" :: folder, folderName)]))⟩ := by
    rw [run_append, run_append, run_append, run_append, run_head1, Option.bind_some, run_clean hf, Option.bind_some, run_head2,
      Option.bind_some]
    simp only [List.append_nil, List.reverse_reverse]
    rw [e, Option.bind_some, run_tail1]
  have hh : ∀ (path : List (List Char)) x y, texts path (([chars% "kml"], ['\n']) :: ([chars% "Document", chars% "kml"], ['\n']) ::
      (folder, txt'.reverse) :: (evs.reverse ++ (headEvs ++ [(x, y)]))).reverse =
      texts path [(x, y)] ++ texts path headEvs.reverse ++ texts path evs ++ texts path [(folder, txt'.reverse),
        ([chars% "Document", chars% "kml"], ['\n']), ([chars% "kml"], ['\n'])] := by
    intro path x y
    rw [← texts_append, ← texts_append, ← texts_append, turned]
  refine ⟨(([chars% "kml"], ['\n']) :: ([chars% "Document", chars% "kml"], ['\n']) :: (folder, txt'.reverse) ::
        (evs.reverse ++ (headEvs ++ [(chars% "name" :: folder, folderName)]))).reverse, ?_, ?_, ?_, ?_⟩
  · unfold readXml
    rw [e0, Option.bind_some, if_pos ⟨rfl, rfl⟩]
  · unfold labels
    rw [hh, show texts ([chars% "name", chars% "Placemark"] ++ folder) [(chars% "name" :: folder, folderName)] = [] from rfl,
      show texts ([chars% "name", chars% "Placemark"] ++ folder) headEvs.reverse = [] from rfl,
      show texts ([chars% "name", chars% "Placemark"] ++ folder) [(folder, txt'.reverse),
        ([chars% "Document", chars% "kml"], ['\n']), ([chars% "kml"], ['\n'])] = [] from rfl]
    simp
  · unfold paths
    rw [hh, show texts ([chars% "coordinates", chars% "LineString", chars% "Placemark"] ++ folder)
        [(chars% "name" :: folder, folderName)] = [] from rfl,
      show texts ([chars% "coordinates", chars% "LineString", chars% "Placemark"] ++ folder) headEvs.reverse = [] from rfl,
      show texts ([chars% "coordinates", chars% "LineString", chars% "Placemark"] ++ folder) [(folder, txt'.reverse),
        ([chars% "Document", chars% "kml"], ['\n']), ([chars% "kml"], ['\n'])] = [] from rfl]
    simp
  · unfold titles
    rw [hh, show texts (chars% "name" :: folder) [(chars% "name" :: folder, folderName)] = [folderName] from rfl,
      show texts (chars% "name" :: folder) headEvs.reverse = [] from rfl,
      show texts (chars% "name" :: folder) [(folder, txt'.reverse),
        ([chars% "Document", chars% "kml"], ['\n']), ([chars% "kml"], ['\n'])] = [] from rfl]
    simp

/-! ### The options -/

/-- The arguments given with an option, in order. -/
def given (c : Char) (args : List (Char × Name)) : List Name := args.filterMap fun a => if a.1 = c then some a.2 else none

theorem given_snoc (c : Char) (args : List (Char × Name)) (a : Char × Name) :
    given c (args ++ [a]) = given c args ++ if a.1 = c then [a.2] else [] := by
  unfold given
  rw [List.filterMap_append]
  split_ifs with h <;> simp [h]

theorem options (args : List (Char × Name)) :
    (args.foldl option {}).inames = given 'i' args ∧
    (args.foldl option {}).oname = (given 'o' args).getLast?.getD [] ∧
    (args.foldl option {}).zone = (given 'z' args).getLast?.getD [] ∧
    (args.foldl option {}).folder = (given 'f' args).getLast?.getD (chars% "SEG-Y") ∧
    ((args.foldl option {}).help = true ↔ ∃ a ∈ args, a.1 = 'h') := by
  induction args using List.reverseRecOn with
  | nil => exact ⟨rfl, rfl, rfl, rfl, by simp⟩
  | append_singleton args a ih =>
    obtain ⟨h1, h2, h3, h4, h5⟩ := ih
    rw [List.foldl_append]
    simp only [List.foldl_cons, List.foldl_nil, given_snoc]
    generalize args.foldl option {} = o at *
    obtain ⟨c, n⟩ := a
    unfold option
    have hx : ∀ x : Char, (∃ a ∈ args ++ [(c, n)], a.1 = x) ↔ (∃ a ∈ args, a.1 = x) ∨ c = x := by
      intro x
      simp only [List.mem_append, List.mem_singleton]
      constructor
      · rintro ⟨a, ha | rfl, hc⟩
        · exact Or.inl ⟨a, ha, hc⟩
        · exact Or.inr hc
      · rintro (⟨a, ha, hc⟩ | hc)
        · exact ⟨a, Or.inl ha, hc⟩
        · exact ⟨_, Or.inr rfl, hc⟩
    rw [hx]
    dsimp only
    by_cases ci : c = 'i'
    · subst ci
      simp [h1, h2, h3, h4, h5]
    by_cases co : c = 'o'
    · subst co
      simp [h1, h3, h4, h5]
    by_cases cf : c = 'f'
    · subst cf
      simp [h1, h2, h3, h5]
    by_cases cz : c = 'z'
    · subst cz
      simp [h1, h2, h4, h5]
    by_cases ch : c = 'h'
    · subst ch
      simp [h1, h2, h3, h4]
    · simp [ci, co, cf, cz, ch, h1, h2, h3, h4, h5]

/-- The name ends in `y` or `Y`. -/
def EndsInY (n : Name) : Prop := ∃ w, n = w ++ ['y'] ∨ n = w ++ ['Y']

/-- The bytes of a file as characters. -/
def written (d : Disk) : List Char := (List.range d.size).map fun x => Char.ofNat (d.byte x).toNat

/-- A zone: empty, or a whole number from 1 to 60 and a letter for the hemisphere. -/
def ZoneOk (stof : Name → Option ℚ) (z : Name) : Prop :=
  z = [] ∨ ∃ w c, z = w ++ [c] ∧ c ∈ ['n', 'N', 's', 'S'] ∧ ∃ k : ℕ, 1 ≤ k ∧ k ≤ 60 ∧ stof z = some (k : ℚ)

/-- The options ask for a document with these names of files, this zone and this name of the folder: the names are given as
options, or there is one file that holds them, one in each line; the last line may lack its end. -/
structure Asked (stof : Name → Option ℚ) (fs : Name → Option Disk) (args : List (Char × Name)) (names : List Name)
    (folderName zone : Name) : Prop where
  help : ∀ a ∈ args, a.1 ≠ 'h'
  out : ∃ o, (given 'o' args).getLast? = some o ∧ o ≠ []
  zoneIs : (given 'z' args).getLast?.getD [] = zone
  zoneOk : ZoneOk stof zone
  folderIs : (given 'f' args).getLast?.getD (chars% "SEG-Y") = folderName
  namesAre : (∃ n, names.head? = some n ∧ EndsInY n ∧ given 'i' args = names) ∨
    ∃ n d, given 'i' args = [n] ∧ n ≠ [] ∧ ¬EndsInY n ∧ fs n = some d ∧ (∀ m ∈ names, '\n' ∉ m) ∧
      (written d = names.flatMap (· ++ ['\n']) ∨
        ∃ l, l ≠ [] ∧ names.getLast? = some l ∧ written d = names.dropLast.flatMap (· ++ ['\n']) ++ l)

theorem upper_eq {c : Char} (u l : Char) (hu : u.toUpper = u) (hl : l.toUpper = u) (hv : l.val = u.val - ('A'.val - 'a'.val)) :
    c.toUpper = u ↔ c = l ∨ c = u := by
  constructor
  · intro h
    unfold Char.toUpper at h
    split at h
    · left
      have h1 := congrArg Char.val h
      apply Char.ext
      rw [hv, ← h1]
      exact (UInt32.add_sub_cancel _ _).symm
    · exact Or.inr h
  · rintro (rfl | rfl)
    · exact hl
    · exact hu

theorem upperY (c : Char) : c.toUpper = 'Y' ↔ c = 'y' ∨ c = 'Y' := upper_eq 'Y' 'y' rfl rfl rfl
theorem upperN (c : Char) : c.toUpper = 'N' ↔ c = 'n' ∨ c = 'N' := upper_eq 'N' 'n' rfl rfl rfl
theorem upperS (c : Char) : c.toUpper = 'S' ↔ c = 's' ∨ c = 'S' := upper_eq 'S' 's' rfl rfl rfl

theorem endsInY_iff {w : Name} {c : Char} : EndsInY (w ++ [c]) ↔ c.toUpper = 'Y' := by
  rw [upperY]
  constructor
  · rintro ⟨w', h | h⟩
    · exact Or.inl (by simpa using (List.append_inj' h rfl).2)
    · exact Or.inr (by simpa using (List.append_inj' h rfl).2)
  · rintro (rfl | rfl)
    · exact ⟨w, Or.inl rfl⟩
    · exact ⟨w, Or.inr rfl⟩

theorem textLines_word {w : List Char} (h : '\n' ∉ w) (s : List Char) : textLines (w ++ '\n' :: s) = w :: textLines s := by
  induction w with
  | nil => rw [List.nil_append, textLines, if_pos rfl]
  | cons c w ih =>
    rw [List.mem_cons, not_or] at h
    rw [List.cons_append, textLines, if_neg (Ne.symm h.1), ih h.2]

theorem textLines_all {names : List Name} (h : ∀ m ∈ names, '\n' ∉ m) : textLines (names.flatMap (· ++ ['\n'])) = names := by
  induction names with
  | nil => rfl
  | cons n ns ih =>
    rw [List.flatMap_cons, List.append_assoc, List.singleton_append, textLines_word (h n (by simp)), ih fun m hm => h m (by simp [hm])]

theorem textLines_last {w : List Char} (h : '\n' ∉ w) (h0 : w ≠ []) : textLines w = [w] := by
  induction w with
  | nil => exact absurd rfl h0
  | cons c w ih =>
    rw [List.mem_cons, not_or] at h
    rw [textLines, if_neg (Ne.symm h.1)]
    cases w with
    | nil => rfl
    | cons c' w => rw [ih h.2 (by simp)]

theorem textLines_open {names : List Name} (h : ∀ m ∈ names, '\n' ∉ m) {l : Name} (hl : '\n' ∉ l) (h0 : l ≠ []) :
    textLines (names.flatMap (· ++ ['\n']) ++ l) = names ++ [l] := by
  induction names with
  | nil => exact textLines_last hl h0
  | cons n ns ih =>
    rw [List.flatMap_cons, List.append_assoc, List.append_assoc, List.singleton_append, textLines_word (h n (by simp)),
      ih fun m hm => h m (by simp [hm])]
    rfl

theorem badZone_ok {stof : Name → Option ℚ} {z : Name} (h : ZoneOk stof z) : badZone stof z = .ok false := by
  rcases h with rfl | ⟨w, c, rfl, hc, k, k1, k2, hk⟩
  · rfl
  · unfold badZone
    rw [List.getLast?_append_of_ne_nil _ (by simp)]
    simp only [List.getLast?_singleton]
    have hu : ¬(c.toUpper ≠ 'N' ∧ c.toUpper ≠ 'S') := by
      simp only [List.mem_cons, List.not_mem_nil, or_false] at hc
      rw [not_and_or, not_not, not_not, upperN, upperS]
      tauto
    rw [if_neg hu, hk]
    have h1 : (1 : ℚ) ≤ k := by exact_mod_cast k1
    have h2 : (k : ℚ) ≤ 60 := by exact_mod_cast k2
    simp [not_lt.2 h1, not_lt.2 h2]

variable {stof : Name → Option ℚ} {utm : ℚ → ℚ → Name → ℚ × ℚ} {cv : Conv ℚ ℚ} {cvt : Conv ℚ (BitVec 64)} {P : Nat}
  {fs : Name → Option Disk} {args : List (Char × Name)} {names : List Name} {folderName zone : Name}

theorem files_asked (h : Asked stof fs args names folderName zone) : given 'i' args ≠ [] ∧ files fs (given 'i' args) = .ok names := by
  rcases h.namesAre with ⟨n, h1, ⟨w, hw⟩, h3⟩ | ⟨n, d, h1, h2, h3, h4, h5, h6⟩
  · refine ⟨by rw [h3]; rintro rfl; simp at h1, ?_⟩
    rw [h3]
    unfold files
    rw [h1]
    rcases hw with rfl | rfl
    · dsimp only
      rw [List.getLast?_append_of_ne_nil _ (by simp)]
      simp only [List.getLast?_singleton]
      rw [if_neg (by decide)]
    · dsimp only
      rw [List.getLast?_append_of_ne_nil _ (by simp)]
      simp only [List.getLast?_singleton]
      rw [if_neg (by decide)]
  · refine ⟨by rw [h1]; simp, ?_⟩
    rw [h1]
    obtain ⟨w, c, rfl⟩ : ∃ w c, n = w ++ [c] := ⟨n.dropLast, n.getLast h2, (List.dropLast_append_getLast h2).symm⟩
    unfold files
    simp only [List.head?_cons]
    rw [List.getLast?_append_of_ne_nil _ (by simp)]
    simp only [List.getLast?_singleton]
    rw [endsInY_iff] at h3
    rw [if_pos h3, show content fs (w ++ [c]) = d by unfold content; rw [h4]; rfl]
    show Res.ok (textLines (written d)) = _
    rcases h6 with h6 | ⟨l, l1, l2, h6⟩
    · rw [h6, textLines_all h5]
    · have hne : names ≠ [] := by rintro rfl; simp at l2
      have hl : names.getLast hne = l := by rw [List.getLast?_eq_some_getLast hne] at l2; exact Option.some.inj l2
      rw [h6, textLines_open (fun m hm => h5 m (List.mem_of_mem_dropLast hm)) (h5 l (hl ▸ List.getLast_mem hne)) l1, ← hl,
        List.dropLast_append_getLast]

theorem main_asked (h : Asked stof fs args names folderName zone) : main stof utm cv cvt P fs args =
    (placemarks utm cv cvt P fs zone names).bind fun t => .ok (some (head1 ++ folderName ++ head2 ++ t ++ tail1)) := by
  obtain ⟨h1, h2, h3, h4, h5⟩ := options args
  obtain ⟨g1, g2⟩ := files_asked h
  obtain ⟨o, o1, o2⟩ := h.out
  unfold main
  dsimp only
  rw [h1, h2, h3, h4, h.zoneIs, h.folderIs, o1, badZone_ok h.zoneOk, g2]
  rw [if_neg (fun e => by obtain ⟨a, ha, hc⟩ := h5.1 e; exact h.help a ha hc), if_neg (by simp [g1, o2])]
  rw [Res.ok_bind]
  simp only [Bool.false_eq_true, if_false]
  rw [Res.ok_bind]
  rfl

/-! ### The corners -/

theorem isDouble_rnd (x : ℚ) : IsDouble (rnd x) := by
  by_cases hx : x = 0
  · subst hx
    rw [rnd_zero]
    exact isDouble_zero
  · rw [rnd_of_ne hx]
    have hp := two_zpow_pos (ulpExp x)
    have he : -1074 ≤ ulpExp x := by unfold ulpExp; omega
    have hlt : |x / 2 ^ ulpExp x| < 2 ^ 53 := by
      rw [abs_div, abs_of_pos hp, div_lt_iff₀ hp]
      refine lt_of_lt_of_le (lt_log (x := x)) ?_
      have e1 : (2 : ℚ) ^ (53 : ℕ) * 2 ^ ulpExp x = 2 ^ ((53 : ℤ) + ulpExp x) := by
        rw [zpow_add₀ (by norm_num)]
        norm_cast
      rw [e1]
      refine zpow_le_zpow_right₀ (by norm_num) ?_
      unfold ulpExp
      omega
    have h1 := roundEven_err (x / 2 ^ ulpExp x)
    generalize hr : roundEven (x / 2 ^ ulpExp x) = r at h1
    generalize x / 2 ^ ulpExp x = y at *
    generalize ulpExp x = e at *
    have h2 : |(r : ℚ)| < 2 ^ 53 + 1 := by
      rw [abs_le] at h1
      rw [abs_lt] at hlt ⊢
      constructor <;> linarith
    have h3 : |r| ≤ 2 ^ 53 := by
      have : ((|r| : ℤ) : ℚ) < ((2 ^ 53 + 1 : ℤ) : ℚ) := by rw [Int.cast_abs]; exact lt_of_lt_of_eq h2 (by norm_num)
      have : |r| < 2 ^ 53 + 1 := by exact_mod_cast this
      omega
    rcases lt_or_eq_of_le h3 with h | h
    · exact ⟨r, e, h, he, rfl⟩
    · rcases abs_choice r with hc | hc
      · rw [hc] at h
        refine ⟨2 ^ 52, e + 1, by norm_num, by omega, ?_⟩
        rw [h, zpow_add₀ (by norm_num)]
        push_cast
        ring
      · rw [hc] at h
        refine ⟨-2 ^ 52, e + 1, by norm_num, by omega, ?_⟩
        rw [show r = -2 ^ 53 by omega, zpow_add₀ (by norm_num)]
        push_cast
        ring

/-- A double not out of range. -/
def Mild (c : ℚ) : Prop := IsDouble c ∧ |c| ≤ 2 ^ 47

theorem coord_mild (d : Disk) (ns t k : Nat) : Mild (coord dbl d ns t k) := ⟨isDouble_rnd _, FourDSingle.decode_le _ _⟩

theorem Mild.floor {c : ℚ} (h : Mild c) : InI64 ⌊c⌋ := by
  obtain ⟨-, h⟩ := h
  rw [abs_le] at h
  have h1 : ⌊c⌋ ≤ 2 ^ 47 := Int.floor_le_iff.2 (by push_cast; linarith [h.2])
  have h2 : -2 ^ 47 ≤ ⌊c⌋ := Int.le_floor.2 (by push_cast; exact h.1)
  unfold InI64
  constructor <;> omega

theorem IsBox.mild {d : Disk} {i : Info} {b : Box} (h : IsBox d i b) : Mild b.xmin ∧ Mild b.xmax ∧ Mild b.ymin ∧ Mild b.ymax := by
  obtain ⟨⟨⟨t0, -, e0⟩, ⟨t1, -, e1⟩, -⟩, ⟨t2, -, e2⟩, ⟨t3, -, e3⟩, -⟩ := h
  rw [← e0, ← e1, ← e2, ← e3]
  exact ⟨coord_mild .., coord_mild .., coord_mild .., coord_mild ..⟩

/-- The conversion gives doubles that are not out of range. -/
def Gives (utm : ℚ → ℚ → Name → ℚ × ℚ) (zone : Name) : Prop := ∀ x y, Mild (utm x y zone).1 ∧ Mild (utm x y zone).2

/-- The numbers of a box are doubles and not out of range. -/
def Box.Mild (b : Box) : Prop := KmlTool.Mild b.xmin ∧ KmlTool.Mild b.xmax ∧ KmlTool.Mild b.ymin ∧ KmlTool.Mild b.ymax

theorem converted_mild (hu : Gives utm zone) {b : Box} (h : b.Mild) : (converted utm zone b).Mild := by
  unfold converted
  split
  · exact ⟨(hu _ _).1, (hu _ _).1, (hu _ _).2, (hu _ _).2⟩
  · exact h

theorem Box.Mild.fits {b : Box} (h : b.Mild) : Fits b := ⟨h.2.2.1.floor, h.1.floor, h.2.2.2.floor, h.2.1.floor⟩

/-- The text stands for the number, or for one that differs in the tenth decimal: so for every whole number, and for the others
that are not negative if their first decimal is not zero and their decimals are not all nines. -/
def Tells (s : List Char) (c : ℚ) : Prop :=
  (c = ⌊c⌋ → readDecimal s = c) ∧
  (0 ≤ c → (1 / 10 : ℚ) ≤ c - ⌊c⌋ → c - ⌊c⌋ ≤ 1 - 1 / 10 ^ 10 → |readDecimal s - c| ≤ 10001 / 10000 / 10 ^ 10)

theorem tells_of {c : ℚ} {s : List Char} (hm : Mild c) (h : highPrecStr c = .ok s) : Tells s c := by
  constructor
  · intro hw
    obtain ⟨m, h1, h2⟩ := read_highPrec h
    rw [← hw, sub_self, rnd_zero, zero_mul, rnd_zero, Int.floor_zero] at h1
    have : m = 0 := by exact_mod_cast h1
    subst this
    rw [← hw] at h2
    simpa using h2
  · intro h0 h1 h2
    have h3 := (abs_le.1 hm.2).2
    obtain ⟨t, e1, e2⟩ := C73_text_partial hm.1 h0 (by norm_num at *; linarith) h1 h2
    rw [e1, Res.ok.injEq] at h
    exact h ▸ e2

/-- A line from one position to another. -/
def Joins (path : List (List (List Char))) (p q : ℚ × ℚ) : Prop :=
  ∃ a b c d, path = [[a, b, ['0']], [c, d, ['0']]] ∧ Tells a p.1 ∧ Tells b p.2 ∧ Tells c q.1 ∧ Tells d q.2

theorem Line.joins {b : Box} (hb : b.Mild) {path : List (List (List Char))} (h : Line b path) :
    Joins path (b.ymin, b.xmin) (b.ymax, b.xmax) := by
  obtain ⟨s2, s0, s3, s1, e2, e0, e3, e1, rfl⟩ := h
  exact ⟨s2, s0, s3, s1, rfl, tells_of hb.2.2.1 e2, tells_of hb.1 e0, tells_of hb.2.2.2 e3, tells_of hb.2.1 e1⟩

/-- What is found under the name is a SEG-Y file with traces, or no file or one without traces. -/
def Readable (fs : Name → Option Disk) (n : Name) : Prop :=
  fs n = none ∨ ∃ d i, fs n = some d ∧ (Segy d i ∨ openRead d = .ok i ∧ i.nt = 0)

theorem corners_readable (hcv : ∀ x, cv.ofF x = x) (hT : ∀ v, cvt.toT v = v) {n : Name} (h : Readable fs n) :
    ∃ b : Box, b.Mild ∧ ∀ P, 0 < P → corners cv cvt P (content fs n) = .ok b := by
  have h0 : Mild 0 := ⟨isDouble_zero, by norm_num⟩
  rcases h with h | ⟨d, i, h1, h2 | ⟨h2, h3⟩⟩
  · refine ⟨⟨0, 0, 0, 0⟩, ⟨h0, h0, h0, h0⟩, fun P hP => ?_⟩
    refine corners_none cv hcv cvt hT P hP (i := ⟨0, 0, 0, 5#16, []⟩) ?_ rfl
    unfold content
    rw [h]
    rfl
  · obtain ⟨b, -, e2⟩ := corners_box cv hcv cvt hT 1 (by omega) h2
    refine ⟨b, e2.mild, fun P hP => ?_⟩
    rw [show content fs n = d by unfold content; rw [h1]; rfl]
    obtain ⟨b', e1', e2'⟩ := corners_box cv hcv cvt hT P hP h2
    rw [e1', e2.unique e2']
  · refine ⟨⟨0, 0, 0, 0⟩, ⟨h0, h0, h0, h0⟩, fun P hP => ?_⟩
    rw [show content fs n = d by unfold content; rw [h1]; rfl]
    exact corners_none cv hcv cvt hT P hP h2 h3

theorem usable_of (hcv : ∀ x, cv.ofF x = x) (hT : ∀ v, cvt.toT v = v) (hP : 0 < P) (hu : Gives utm zone) {n : Name}
    (h : Readable fs n) : Usable utm cv cvt P fs zone n := by
  obtain ⟨b, e1, e2⟩ := corners_readable (cv := cv) (cvt := cvt) hcv hT h
  exact ⟨b, e2 P hP, (converted_mild hu e1).fits⟩

/-- **C98 (partial)**: the program ends and the output is well-formed. It has one placemark for each file, in order, with its
name. The line of a file joins two corners of the box around its sources: with a zone, if all easting is over 180, from the
longitude and latitude of one to those of the other; otherwise as they are, y first. Missing: names with markup, files without
traces, names beside that of a list (refuted below), numbers that `Tells` leaves out (C73). The conversion is that of C74. -/
theorem C98_lines_partial (hcv : ∀ x, cv.ofF x = x) (hT : ∀ v, cvt.toT v = v) (hP : 0 < P) (hu : Gives utm zone)
    (h : Asked stof fs args names folderName zone) (hf : Clean folderName)
    (hn : ∀ n ∈ names, Clean n ∧ ∃ d i, fs n = some d ∧ Segy d i) :
    ∃ text all, main stof utm cv cvt P fs args = .ok (some text) ∧ readXml text = some all ∧ titles all = [folderName] ∧
      labels all = names ∧ (paths all).length = names.length ∧
      ∀ (j : Nat) n d i b, names[j]? = some n → fs n = some d → openRead d = .ok i → IsBox d i b → ∃ path, (paths all)[j]? = some path ∧
        if 180 < b.xmin ∧ zone ≠ [] then
          Joins path ((utm b.xmin b.ymin zone).2, (utm b.xmin b.ymin zone).1) ((utm b.xmax b.ymax zone).2, (utm b.xmax b.ymax zone).1)
        else Joins path (b.ymin, b.xmin) (b.ymax, b.xmax) := by
  have hr : ∀ n ∈ names, Clean n ∧ Usable utm cv cvt P fs zone n := fun n hm => by
    obtain ⟨h1, d, i, h2, h3⟩ := hn n hm
    exact ⟨h1, usable_of hcv hT hP hu (Or.inr ⟨d, i, h2, Or.inl h3⟩)⟩
  obtain ⟨t, e1⟩ := placemarks_ok names fun n hm => (hr n hm).2
  obtain ⟨evs, e2, e3, e4, e9, e5⟩ := placemarks_read names hr e1
  obtain ⟨all, e6, e7, e8, e10⟩ := read_document hf e2
  refine ⟨_, all, by rw [main_asked h, e1]; rfl, e6, by rw [e10, e9], e7.trans e3, by rw [e8, e4], fun j n d i b hj hd hi hb => ?_⟩
  have hm : n ∈ names := List.mem_of_getElem? hj
  obtain ⟨-, d', i', g1, g2⟩ := hn n hm
  rw [hd, Option.some.injEq] at g1
  subst g1
  have : i' = i := by have := g2.opens; rw [hi, Res.ok.injEq] at this; exact this.symm
  subst this
  obtain ⟨b', c1, c2⟩ := corners_box cv hcv cvt hT P hP g2
  have hbb := hb.unique c2
  subst hbb
  obtain ⟨path, k1, k2⟩ := e5 j n b hj (by unfold content; rw [hd]; exact c1)
  refine ⟨path, by rw [e8]; exact k1, ?_⟩
  have k3 := k2.joins (converted_mild hu hb.mild)
  unfold converted at k3
  split_ifs with hz
  · rw [if_pos hz] at k3
    exact k3
  · rw [if_neg hz] at k3
    exact k3

/-- **C98**: the output does not depend on the number of processes. -/
theorem C98_processes (hcv : ∀ x, cv.ofF x = x) (hT : ∀ v, cvt.toT v = v) {Q : Nat} (hP : 0 < P) (hQ : 0 < Q)
    (h : Asked stof fs args names folderName zone) (hn : ∀ n ∈ names, Readable fs n) :
    main stof utm cv cvt P fs args = main stof utm cv cvt Q fs args := by
  rw [main_asked h, main_asked h]
  have : placemarks utm cv cvt P fs zone names = placemarks utm cv cvt Q fs zone names := by
    clear h
    induction names with
    | nil => rfl
    | cons n ns ih =>
      obtain ⟨b, -, e⟩ := corners_readable (cv := cv) (cvt := cvt) hcv hT (hn n (by simp))
      unfold placemarks
      rw [e P hP, e Q hQ, Res.ok_bind, Res.ok_bind, ih fun m hm => hn m (by simp [hm])]
  rw [this]

/-! ### What fails -/

theorem run_tag {b : List Char} (h : '>' ∉ b) (s cur txt : List Char) (st : List (List Char))
    (out : List (List (List Char) × List Char)) : run ⟨.tag, cur, txt, st, out⟩ (b ++ '<' :: s) = none := by
  induction b generalizing cur with
  | nil => rfl
  | cons c b ih =>
    rw [List.mem_cons, not_or] at h
    rw [List.cons_append, run, step]
    by_cases hc : c = '<'
    · simp only [hc, if_true, Option.bind_none]
    · simp only [if_neg hc, if_neg (Ne.symm h.1), Option.bind_some]
      exact ih h.2 _

theorem run_ref {b : List Char} (h : ';' ∉ b) (s cur txt : List Char) (st : List (List Char))
    (out : List (List (List Char) × List Char)) : run ⟨.ref, cur, txt, st, out⟩ (b ++ '<' :: s) = none := by
  induction b generalizing cur with
  | nil => rfl
  | cons c b ih =>
    rw [List.mem_cons, not_or] at h
    rw [List.cons_append, run, step]
    by_cases hc : c = '<'
    · simp only [hc, if_true, Option.bind_none]
    · simp only [if_neg hc, if_neg (Ne.symm h.1), Option.bind_some]
      exact ih h.2 _

/-- A name that a reader does not get past: a `<` that is not closed, or a `&` that starts no reference. -/
def Breaks (n : Name) : Prop := ∃ a b, Clean a ∧ (n = a ++ '<' :: b ∧ '>' ∉ b ∨ n = a ++ '&' :: b ∧ ';' ∉ b)

theorem run_breaks {n : Name} (h : Breaks n) (s txt a : List Char) (st : List (List Char))
    (out : List (List (List Char) × List Char)) : run ⟨.text, [], txt, a :: st, out⟩ (n ++ '<' :: s) = none := by
  obtain ⟨u, v, hu, ⟨rfl, hv⟩ | ⟨rfl, hv⟩⟩ := h
  · rw [List.append_assoc, run_append, run_clean hu, Option.bind_some, List.cons_append, run]
    exact run_tag hv ..
  · rw [List.append_assoc, run_append, run_clean hu, Option.bind_some, List.cons_append, run]
    exact run_ref hv ..

theorem placemarks_split (pre post : List Name) (n : Name) {t : List Char}
    (h : placemarks utm cv cvt P fs zone (pre ++ n :: post) = .ok t) :
    ∃ t1 t2, placemarks utm cv cvt P fs zone pre = .ok t1 ∧ t = t1 ++ (mark1 ++ (n ++ (mark2 ++ t2))) := by
  induction pre generalizing t with
  | nil =>
    rw [List.nil_append, placemarks] at h
    obtain ⟨b, -, h⟩ := bind_ok_inv h
    obtain ⟨s, h1, h⟩ := bind_ok_inv h
    obtain ⟨t', -, h⟩ := bind_ok_inv h
    rw [Res.ok.injEq] at h
    unfold addLine at h1
    obtain ⟨s2, -, h1⟩ := bind_ok_inv h1
    obtain ⟨s0, -, h1⟩ := bind_ok_inv h1
    obtain ⟨s3, -, h1⟩ := bind_ok_inv h1
    obtain ⟨s1, -, h1⟩ := bind_ok_inv h1
    rw [Res.ok.injEq] at h1
    refine ⟨[], n ++ (mark3 ++ (s2 ++ (',' :: s0 ++ (mark4 ++ (s3 ++ (',' :: s1 ++ (mark5 ++ t'))))))), rfl, ?_⟩
    rw [← h, ← h1]
    simp only [List.append_assoc, List.nil_append, List.cons_append]
  | cons m pre ih =>
    rw [List.cons_append, placemarks] at h
    obtain ⟨b, h0, h⟩ := bind_ok_inv h
    obtain ⟨s, h1, h⟩ := bind_ok_inv h
    obtain ⟨t', h2, h⟩ := bind_ok_inv h
    rw [Res.ok.injEq] at h
    obtain ⟨t1, t2, e1, e2⟩ := ih h2
    refine ⟨s ++ t1, t2, ?_, ?_⟩
    · rw [placemarks, h0, Res.ok_bind, h1, Res.ok_bind, e1]
      rfl
    · rw [← h, e2, List.append_assoc]

theorem mark2_head : ∃ s, mark2 = '<' :: s := ⟨_, rfl⟩

/-- **C98 fails for names with markup**: names are written as they are, so with a `<` or `&` in one the output is not
well-formed and no map can be read, although the program ends as usual. -/
theorem C98_markup_refuted (hcv : ∀ x, cv.ofF x = x) (hT : ∀ v, cvt.toT v = v) (hP : 0 < P) (hu : Gives utm zone)
    (h : Asked stof fs args names folderName zone) (hf : Clean folderName) (hn : ∀ n ∈ names, Readable fs n)
    {pre post : List Name} {n : Name} (hs : names = pre ++ n :: post) (hc : ∀ m ∈ pre, Clean m) (hb : Breaks n) :
    ∃ text, main stof utm cv cvt P fs args = .ok (some text) ∧ readXml text = none := by
  have hr : ∀ n ∈ names, Usable utm cv cvt P fs zone n := fun n hm => usable_of hcv hT hP hu (hn n hm)
  obtain ⟨t, e1⟩ := placemarks_ok names hr
  refine ⟨_, by rw [main_asked h, e1]; rfl, ?_⟩
  rw [hs] at e1
  obtain ⟨t1, t2, e2, e3⟩ := placemarks_split pre post n e1
  obtain ⟨evs, e4, -⟩ := placemarks_read pre (fun m hm => ⟨hc m hm, hr m (by rw [hs]; simp [hm])⟩) e2
  obtain ⟨m2, em⟩ := mark2_head
  unfold readXml
  rw [List.append_assoc, List.append_assoc, List.append_assoc, run_append, run_head1, Option.bind_some, run_append, run_clean hf,
    Option.bind_some, run_append, run_head2, Option.bind_some, e3, List.append_assoc, run_append]
  obtain ⟨txt', e5⟩ := e4 ['\n', '\n'] (headEvs ++ [(chars% "name" :: folder, (folderName.reverse ++ []).reverse)])
  rw [e5, Option.bind_some, List.append_assoc, run_append, run_mark1, Option.bind_some, em]
  rw [List.append_assoc, show '<' :: m2 ++ t2 ++ tail1 = '<' :: (m2 ++ t2 ++ tail1) from rfl,
    show ([chars% "name", chars% "Placemark"] ++ folder) = chars% "name" :: (chars% "Placemark" :: folder) from rfl, run_breaks hb]
  rfl

/-- **C98 fails for names that are not there**: a file that does not exist, or has no traces, gets a placemark as well, with a
line from the point at longitude and latitude zero to itself. -/
theorem C98_empty_refuted (hcv : ∀ x, cv.ofF x = x) (hT : ∀ v, cvt.toT v = v) (hP : 0 < P) (hu : Gives utm zone)
    (h : Asked stof fs args names folderName zone) (hf : Clean folderName) (hn : ∀ n ∈ names, Clean n ∧ Readable fs n)
    {j : Nat} {n : Name} (hj : names[j]? = some n)
    (h0 : fs n = none ∨ ∃ d i, fs n = some d ∧ openRead d = .ok i ∧ i.nt = 0) :
    ∃ text all, main stof utm cv cvt P fs args = .ok (some text) ∧ readXml text = some all ∧ labels all = names ∧
      (paths all)[j]? = some [[['0', '.', '0'], ['0', '.', '0'], ['0']], [['0', '.', '0'], ['0', '.', '0'], ['0']]] := by
  have hr : ∀ n ∈ names, Clean n ∧ Usable utm cv cvt P fs zone n := fun n hm =>
    ⟨(hn n hm).1, usable_of hcv hT hP hu (hn n hm).2⟩
  obtain ⟨t, e1⟩ := placemarks_ok names fun n hm => (hr n hm).2
  obtain ⟨evs, e2, e3, -, -, e5⟩ := placemarks_read names hr e1
  obtain ⟨all, e6, e7, e8, -⟩ := read_document hf e2
  refine ⟨_, all, by rw [main_asked h, e1]; rfl, e6, e7.trans e3, ?_⟩
  have hc : corners cv cvt P (content fs n) = .ok ⟨0, 0, 0, 0⟩ := by
    rcases h0 with h0 | ⟨d, i, h1, h2, h3⟩
    · refine corners_none cv hcv cvt hT P hP (i := ⟨0, 0, 0, 5#16, []⟩) ?_ rfl
      unfold content
      rw [h0]
      rfl
    · rw [show content fs n = d by unfold content; rw [h1]; rfl]
      exact corners_none cv hcv cvt hT P hP h2 h3
  obtain ⟨path, k1, s2, s0, s3, s1, g2, g0, g3, g1, k2⟩ := e5 j n _ hj hc
  have hz : converted utm zone ⟨0, 0, 0, 0⟩ = ⟨0, 0, 0, 0⟩ := if_neg (by norm_num)
  have hp : highPrecStr 0 = .ok ['0', '.', '0'] := by
    unfold highPrecStr
    rw [if_pos (by unfold InI64; norm_num)]
    simp only [Int.floor_zero, Int.cast_zero, sub_zero, rnd_zero, zero_mul]
    rfl
  rw [hz] at g2 g0 g3 g1
  simp only [hp, Res.ok.injEq] at g2 g0 g3 g1
  rw [e8, k1, k2, ← g2, ← g0, ← g3, ← g1]

/-- **C98 fails for coordinates in degrees**: without a zone the source x, which is the longitude, is written where the latitude
belongs. East of the 91st degree what is read as latitude is no latitude. -/
theorem C98_degrees_refuted (hcv : ∀ x, cv.ofF x = x) (hT : ∀ v, cvt.toT v = v) (hP : 0 < P) (hu : Gives utm [])
    (h : Asked stof fs args names folderName []) (hf : Clean folderName)
    (hn : ∀ n ∈ names, Clean n ∧ ∃ d i, fs n = some d ∧ Segy d i)
    {j : Nat} {n : Name} {d : Disk} {i : Info} (hj : names[j]? = some n) (hd : fs n = some d) (hi : openRead d = .ok i)
    (hx : ∀ t, t < i.nt → 91 ≤ coord dbl d i.ns t 0 ∧ coord dbl d i.ns t 0 ≤ 180) :
    ∃ text all path, main stof utm cv cvt P fs args = .ok (some text) ∧ readXml text = some all ∧
      (paths all)[j]? = some path ∧ ∀ p ∈ path, ∃ lon lat, p = [lon, lat, ['0']] ∧ 91 ≤ readDecimal lat := by
  have hr : ∀ n ∈ names, Clean n ∧ Usable utm cv cvt P fs [] n := fun n hm => by
    obtain ⟨h1, d, i, h2, h3⟩ := hn n hm
    exact ⟨h1, usable_of hcv hT hP hu (Or.inr ⟨d, i, h2, Or.inl h3⟩)⟩
  obtain ⟨t, e1⟩ := placemarks_ok names fun n hm => (hr n hm).2
  obtain ⟨evs, e2, -, -, -, e5⟩ := placemarks_read names hr e1
  obtain ⟨all, e6, -, e8, -⟩ := read_document hf e2
  obtain ⟨-, d', i', g1, g2⟩ := hn n (List.mem_of_getElem? hj)
  rw [hd, Option.some.injEq] at g1
  subst g1
  have : i' = i := by have := g2.opens; rw [hi, Res.ok.injEq] at this; exact this.symm
  subst this
  obtain ⟨b, c1, ⟨⟨t0, b0, b1⟩, ⟨t1, b2, b3⟩, -⟩, -⟩ := corners_box cv hcv cvt hT P hP g2
  obtain ⟨path, k1, s2, s0, s3, s1, -, q0, -, q1, k2⟩ := e5 j n b hj (by unfold content; rw [hd]; exact c1)
  refine ⟨_, all, path, by rw [main_asked h, e1]; rfl, e6, by rw [e8]; exact k1, ?_⟩
  have hcv0 : converted utm [] b = b := if_neg (by simp)
  rw [hcv0] at q0 q1
  have hlat : ∀ {c : ℚ} {s : List Char}, 91 ≤ c → highPrecStr c = .ok s → 91 ≤ readDecimal s := by
    intro c s hc hs
    obtain ⟨m, -, hm⟩ := read_highPrec hs
    rw [if_neg (by linarith)] at hm
    have h1 : (91 : ℚ) ≤ ⌊c⌋ := by
      have : (91 : ℤ) ≤ ⌊c⌋ := Int.le_floor.2 (by exact_mod_cast hc)
      exact_mod_cast this
    have h2 : (0 : ℚ) ≤ m / 10 ^ (Nat.toDigits 10 m).length := by positivity
    rw [hm]
    linarith
  intro p hp
  rw [k2] at hp
  simp only [List.mem_cons, List.not_mem_nil, or_false] at hp
  rcases hp with rfl | rfl
  · exact ⟨s2, s0, rfl, hlat (by rw [← b1]; exact (hx t0 b0).1) q0⟩
  · exact ⟨s3, s1, rfl, hlat (by rw [← b3]; exact (hx t1 b2).1) q1⟩

theorem main_files (hh : ∀ a ∈ args, a.1 ≠ 'h') (ho : ∃ o, (given 'o' args).getLast? = some o ∧ o ≠ [])
    (hi : given 'i' args ≠ []) (hz : given 'z' args = []) : main stof utm cv cvt P fs args =
    (files fs (given 'i' args)).bind fun names => (placemarks utm cv cvt P fs [] names).bind fun t =>
      .ok (some (head1 ++ (given 'f' args).getLast?.getD (chars% "SEG-Y") ++ head2 ++ t ++ tail1)) := by
  obtain ⟨h1, h2, h3, h4, h5⟩ := options args
  obtain ⟨o, o1, o2⟩ := ho
  unfold main
  dsimp only
  rw [h1, h2, h3, h4, o1, hz]
  rw [if_neg (fun e => by obtain ⟨a, ha, hc⟩ := h5.1 e; exact hh a ha hc), if_neg (by simp [hi, o2])]
  simp only [List.getLast?_nil, Option.getD_none]
  rw [badZone_ok (Or.inl rfl), Res.ok_bind]
  simp only [Bool.false_eq_true, if_false]
  rfl

/-- **C98 fails for files whose name does not end in `y`**: the first is taken for a list and all the others are passed over
without a message; the output is what the first alone would give. -/
theorem C98_dropped_refuted {args' : List (Char × Name)} (hh : ∀ a ∈ args, a.1 ≠ 'h') (hh' : ∀ a ∈ args', a.1 ≠ 'h')
    (ho : ∃ o, (given 'o' args).getLast? = some o ∧ o ≠ []) (ho' : ∃ o, (given 'o' args').getLast? = some o ∧ o ≠ [])
    (hz : given 'z' args = []) (hz' : given 'z' args' = []) (hf : given 'f' args = given 'f' args') {n : Name} {rest : List Name}
    (hi : given 'i' args = n :: rest) (hi' : given 'i' args' = [n]) (hy : ¬EndsInY n) :
    main stof utm cv cvt P fs args = main stof utm cv cvt P fs args' := by
  rw [main_files hh ho (by rw [hi]; simp) hz, main_files hh' ho' (by rw [hi']; simp) hz', hf, hi, hi']
  congr 1
  rcases List.eq_nil_or_concat n with rfl | ⟨w, c, rfl⟩
  · rfl
  · rw [List.concat_eq_append] at hy ⊢
    rw [endsInY_iff] at hy
    unfold files
    simp only [List.head?_cons]
    rw [List.getLast?_append_of_ne_nil _ (by simp)]
    simp only [List.getLast?_singleton]
    rw [if_pos hy, if_pos hy]

/-- **C98 fails if the first file has no such name and is not there**: the output is a document without any placemark, whatever
other files are given. -/
theorem C98_nothing_refuted (hh : ∀ a ∈ args, a.1 ≠ 'h') (ho : ∃ o, (given 'o' args).getLast? = some o ∧ o ≠ [])
    (hz : given 'z' args = []) (hf : given 'f' args = []) {n : Name} {rest : List Name} (hi : given 'i' args = n :: rest)
    (hn : n ≠ []) (hy : ¬EndsInY n) (h0 : fs n = none) :
    ∃ text all, main stof utm cv cvt P fs args = .ok (some text) ∧ readXml text = some all ∧ labels all = [] := by
  obtain ⟨w, c, rfl⟩ : ∃ w c, n = w ++ [c] := ⟨n.dropLast, n.getLast hn, (List.dropLast_append_getLast hn).symm⟩
  have hfs : files fs ((w ++ [c]) :: rest) = .ok [] := by
    rw [endsInY_iff] at hy
    unfold files
    simp only [List.head?_cons]
    rw [List.getLast?_append_of_ne_nil _ (by simp)]
    simp only [List.getLast?_singleton]
    rw [if_pos hy, show content fs (w ++ [c]) = ⟨0, fun _ => 0#8⟩ by unfold content; rw [h0]; rfl]
    rfl
  obtain ⟨all, e1, e2, -⟩ := read_document (folderName := chars% "SEG-Y") (t := []) (evs := []) ⟨by decide, by decide⟩
    fun txt out => ⟨txt, rfl⟩
  refine ⟨_, all, ?_, e1, e2⟩
  rw [main_files hh ho (by rw [hi]; simp) hz, hi, hfs, hf]
  rfl

/-- **C98 fails for an empty name**: its last character is looked at, which is undefined. -/
theorem C98_unnamed_refuted (hh : ∀ a ∈ args, a.1 ≠ 'h') (ho : ∃ o, (given 'o' args).getLast? = some o ∧ o ≠ [])
    (hz : given 'z' args = []) (hi : (given 'i' args).head? = some []) : main stof utm cv cvt P fs args = .ub := by
  rw [main_files hh ho (by intro e; rw [e] at hi; simp at hi) hz]
  unfold files
  rw [hi]
  rfl

/-- **C98 fails for a zone of letters only**: `std::stof` throws and nothing catches it, where the message on zones is due. -/
theorem C98_zone_refuted (hh : ∀ a ∈ args, a.1 ≠ 'h') (ho : ∃ o, (given 'o' args).getLast? = some o ∧ o ≠ [])
    (hi : given 'i' args ≠ []) {w : Name} {c : Char} (hz : (given 'z' args).getLast? = some (w ++ [c]))
    (hc : c ∈ ['n', 'N', 's', 'S']) (hs : stof (w ++ [c]) = none) : main stof utm cv cvt P fs args = .abort := by
  obtain ⟨h1, h2, h3, h4, h5⟩ := options args
  obtain ⟨o, o1, o2⟩ := ho
  unfold main
  dsimp only
  rw [h1, h2, h3, o1, hz]
  rw [if_neg (fun e => by obtain ⟨a, ha, hc⟩ := h5.1 e; exact hh a ha hc), if_neg (by simp [hi, o2])]
  have hb : badZone stof (w ++ [c]) = .abort := by
    unfold badZone
    rw [List.getLast?_append_of_ne_nil _ (by simp)]
    simp only [List.getLast?_singleton]
    have hu : ¬(c.toUpper ≠ 'N' ∧ c.toUpper ≠ 'S') := by
      simp only [List.mem_cons, List.not_mem_nil, or_false] at hc
      rw [not_and_or, not_not, not_not, upperN, upperS]
      tauto
    rw [if_neg hu, hs]
  rw [Option.getD_some, hb]
  rfl

/-! ### The hypotheses are met -/

/-- A file of traces of one sample. The source of trace `k` is at x 500000 or 100, y `k`. -/
def exMap (utm : Bool) (n : Nat) : Disk := recFile n fun x =>
  if x % 244 = 73 then (if utm then 0x07#8 else 0) else if x % 244 = 74 then (if utm then 0xa1#8 else 0)
  else if x % 244 = 75 then (if utm then 0x20#8 else 100#8) else if x % 244 = 79 then BitVec.ofNat 8 (x / 244) else 0

theorem exMap_byte (u : Bool) (n k x : Nat) (hx : x < 244) : (exMap u n).byte (3600 + k * (240 + 4 * 1) + x) =
    if x = 73 then (if u then 0x07#8 else 0) else if x = 74 then (if u then 0xa1#8 else 0)
    else if x = 75 then (if u then 0x20#8 else 100#8) else if x = 79 then BitVec.ofNat 8 k else 0 := by
  show (if 3600 + k * (240 + 4 * 1) + x < 3600 then _ else (fun x => if x % 244 = 73 then (if u then 0x07#8 else 0) else
    if x % 244 = 74 then (if u then 0xa1#8 else 0) else if x % 244 = 75 then (if u then 0x20#8 else 100#8) else
    if x % 244 = 79 then BitVec.ofNat 8 (x / 244) else 0) (3600 + k * (240 + 4 * 1) + x - 3600)) = _
  rw [if_neg (by omega)]
  dsimp only
  rw [show (3600 + k * (240 + 4 * 1) + x - 3600) % 244 = x by omega,
    show (3600 + k * (240 + 4 * 1) + x - 3600) / 244 = k by omega]

theorem exMap_x (u : Bool) (n k : Nat) : coord dbl (exMap u n) 1 k 0 = if u then 500000 else 100 := by
  have h1 : be16 (exMap u n) 1 k 71 = 0#16 := by
    unfold be16
    rw [exMap_byte _ _ _ _ (by omega), exMap_byte _ _ _ _ (by omega)]
    show fromBE16 0#8 0#8 = _
    decide
  have h2 : be32 (exMap u n) 1 k 73 = if u then 500000#32 else 100#32 := by
    unfold be32
    rw [exMap_byte _ _ _ _ (by omega), exMap_byte _ _ _ _ (by omega), exMap_byte _ _ _ _ (by omega), exMap_byte _ _ _ _ (by omega)]
    cases u
    · show fromBE32 0#8 0#8 0#8 100#8 = 100#32
      decide
    · show fromBE32 0#8 0x07#8 0xa1#8 0x20#8 = 500000#32
      decide
  show rnd (parseScalar (be16 (exMap u n) 1 k 71) * (be32 (exMap u n) 1 k 73).toInt) = _
  rw [h1, h2, show parseScalar 0#16 = 1 from if_pos rfl, one_mul]
  cases u
  · show rnd (((100#32).toInt : ℤ) : ℚ) = 100
    rw [show (100#32).toInt = 100 by decide, rnd_double (isDouble_int (by decide))]
    norm_num
  · show rnd (((500000#32).toInt : ℤ) : ℚ) = 500000
    rw [show (500000#32).toInt = 500000 by decide, rnd_double (isDouble_int (by decide))]
    norm_num

theorem exMap_y (u : Bool) (n k : Nat) (hk : k < 3) : coord dbl (exMap u n) 1 k 1 = k := by
  have h1 : be16 (exMap u n) 1 k 71 = 0#16 := by
    unfold be16
    rw [exMap_byte _ _ _ _ (by omega), exMap_byte _ _ _ _ (by omega)]
    show fromBE16 0#8 0#8 = _
    decide
  have h2 : be32 (exMap u n) 1 k 77 = BitVec.ofNat 32 k := by
    unfold be32
    rw [exMap_byte _ _ _ _ (by omega), exMap_byte _ _ _ _ (by omega), exMap_byte _ _ _ _ (by omega), exMap_byte _ _ _ _ (by omega)]
    show fromBE32 0#8 0#8 0#8 (BitVec.ofNat 8 k) = _
    rcases (by omega : k = 0 ∨ k = 1 ∨ k = 2) with rfl | rfl | rfl <;> decide
  show rnd (parseScalar (be16 (exMap u n) 1 k 71) * (be32 (exMap u n) 1 k 77).toInt) = _
  rw [h1, h2, show parseScalar 0#16 = 1 from if_pos rfl, one_mul]
  have h3 : (BitVec.ofNat 32 k).toInt = k := by rcases (by omega : k = 0 ∨ k = 1 ∨ k = 2) with rfl | rfl | rfl <;> decide
  rw [h3, rnd_double (isDouble_int (by rw [abs_of_nonneg (by omega)]; omega))]
  norm_num

theorem exMap_segy (u : Bool) {n : Nat} (hn : 0 < n) (h : 3600 + n * (240 + 4 * 1) < 2 ^ 63) : ∃ i, Segy (exMap u n) i ∧ i.ns = 1 ∧ i.nt = n := by
  obtain ⟨t, ht⟩ := recFile_open (n := n) (fun x =>
    if x % 244 = 73 then (if u then 0x07#8 else 0) else if x % 244 = 74 then (if u then 0xa1#8 else 0)
    else if x % 244 = 75 then (if u then 0x20#8 else 100#8) else if x % 244 = 79 then BitVec.ofNat 8 (x / 244) else 0) h
  exact ⟨_, ⟨ht, h, Nat.zero_lt_one, (by decide : 1 ≤ 32767), hn⟩, rfl, rfl⟩

/-- Two files, a list of the two, and no others. -/
def exFiles (n : Name) : Option Disk :=
  if n = chars% "a.sgy" then some (exMap true 3) else if n = chars% "b.sgy" then some (exMap false 3)
  else if n = chars% "list" then some ⟨12, fun x => BitVec.ofNat 8 ((chars% "a.sgy\nb.sgy\n")[x]?.getD ' ').toNat⟩
  else if n = chars% "<.sgy" then some (exMap true 3) else none

def exStof (z : Name) : Option ℚ := if z = chars% "31N" then some 31 else none

def exUtm (_ _ : ℚ) (_ : Name) : ℚ × ℚ := (52, 3)

theorem exGives (zone : Name) : Gives exUtm zone := fun _ _ =>
  ⟨⟨by rw [exUtm]; simpa using isDouble_int (n := 52) (by norm_num), by norm_num [exUtm]⟩,
    ⟨by rw [exUtm]; simpa using isDouble_int (n := 3) (by norm_num), by norm_num [exUtm]⟩⟩

theorem exAsked : Asked exStof exFiles [('i', chars% "a.sgy"), ('i', chars% "b.sgy"), ('z', chars% "31N"), ('o', chars% "m.kml")]
    [chars% "a.sgy", chars% "b.sgy"] (chars% "SEG-Y") (chars% "31N") where
  help := by decide
  out := ⟨_, rfl, by decide⟩
  zoneIs := rfl
  zoneOk := Or.inr ⟨chars% "31", 'N', rfl, by decide, 31, by omega, by omega, by rw [exStof, if_pos rfl]; norm_num⟩
  folderIs := rfl
  namesAre := Or.inl ⟨_, rfl, ⟨chars% "a.sg", Or.inl rfl⟩, rfl⟩

/-- The same with the list. -/
theorem exListed : Asked exStof exFiles [('i', chars% "list"), ('o', chars% "m.kml")] [chars% "a.sgy", chars% "b.sgy"]
    (chars% "SEG-Y") [] where
  help := by decide
  out := ⟨_, rfl, by decide⟩
  zoneIs := rfl
  zoneOk := Or.inl rfl
  folderIs := rfl
  namesAre := Or.inr ⟨chars% "list", _, rfl, by decide, by
    rw [show chars% "list" = ['l', 'i', 's'] ++ ['t'] from rfl, endsInY_iff]; decide, rfl, by decide, Or.inl (by decide)⟩

theorem exSegy : ∀ n ∈ [chars% "a.sgy", chars% "b.sgy"], Clean n ∧ ∃ d i, exFiles n = some d ∧ Segy d i := by
  intro n hn
  simp only [List.mem_cons, List.not_mem_nil, or_false] at hn
  rcases hn with rfl | rfl
  · obtain ⟨i, h, -⟩ := exMap_segy true (n := 3) (by omega) (by omega)
    exact ⟨⟨by decide, by decide⟩, _, i, rfl, h⟩
  · obtain ⟨i, h, -⟩ := exMap_segy false (n := 3) (by omega) (by omega)
    exact ⟨⟨by decide, by decide⟩, _, i, rfl, h⟩

theorem exBox (u : Bool) {i : Info} (h1 : i.ns = 1) (h2 : i.nt = 3) :
    IsBox (exMap u 3) i ⟨if u then 500000 else 100, if u then 500000 else 100, 0, 2⟩ := by
  unfold IsBox Extreme
  rw [h1, h2]
  refine ⟨⟨⟨0, by omega, exMap_x ..⟩, ⟨0, by omega, exMap_x ..⟩, fun t _ => ?_⟩, ⟨0, by omega, ?_⟩, ⟨2, by omega, ?_⟩, fun t ht => ?_⟩
  · dsimp only
    rw [exMap_x]
    exact ⟨le_refl _, le_refl _⟩
  · dsimp only
    rw [exMap_y _ _ _ (by omega)]
    norm_num
  · dsimp only
    rw [exMap_y _ _ _ (by omega)]
    norm_num
  · dsimp only
    rw [exMap_y _ _ _ ht]
    have : (t : ℚ) ≤ 2 := by exact_mod_cast (by omega : t ≤ 2)
    exact ⟨by positivity, this⟩

/-- The hypotheses of `C98_lines_partial`: two files on three processes; the first is in zone 31, the second in degrees. -/
example : ∃ text all p q, main exStof exUtm FourDOut.exConvR FourDOut.exConvQ 3 exFiles
    [('i', chars% "a.sgy"), ('i', chars% "b.sgy"), ('z', chars% "31N"), ('o', chars% "m.kml")] = .ok (some text) ∧
    readXml text = some all ∧ labels all = [chars% "a.sgy", chars% "b.sgy"] ∧ (paths all)[0]? = some p ∧ Joins p (3, 52) (3, 52) ∧
    (paths all)[1]? = some q ∧ Joins q (0, 100) (2, 100) := by
  obtain ⟨text, all, e1, e2, -, e3, -, e5⟩ := C98_lines_partial (cv := FourDOut.exConvR) (cvt := FourDOut.exConvQ) (P := 3)
    (fun _ => rfl) (fun _ => rfl) (by omega) (exGives _) exAsked ⟨by decide, by decide⟩ exSegy
  obtain ⟨i, h1, h2, h3⟩ := exMap_segy true (n := 3) (by omega) (by omega)
  obtain ⟨i', h1', h2', h3'⟩ := exMap_segy false (n := 3) (by omega) (by omega)
  obtain ⟨p, p1, p2⟩ := e5 0 _ _ _ _ rfl rfl h1.opens (exBox true h2 h3)
  obtain ⟨q, q1, q2⟩ := e5 1 _ _ _ _ rfl rfl h1'.opens (exBox false h2' h3')
  refine ⟨text, all, p, q, e1, e2, e3, p1, ?_, q1, ?_⟩
  · rw [if_pos ⟨by norm_num, by decide⟩] at p2
    exact p2
  · rw [if_neg (by norm_num)] at q2
    exact q2

/-- The hypotheses of `C98_processes`: the list on one process and on five. -/
example : main exStof exUtm FourDOut.exConvR FourDOut.exConvQ 1 exFiles [('i', chars% "list"), ('o', chars% "m.kml")] =
    main exStof exUtm FourDOut.exConvR FourDOut.exConvQ 5 exFiles [('i', chars% "list"), ('o', chars% "m.kml")] :=
  C98_processes (fun _ => rfl) (fun _ => rfl) (by omega) (by omega) exListed fun n hn => by
    obtain ⟨-, d, i, h1, h2⟩ := exSegy n hn
    exact Or.inr ⟨d, i, h1, Or.inl h2⟩

/-- The hypotheses of `C98_markup_refuted`: a name that starts with `<`. -/
example : ∃ text, main exStof exUtm FourDOut.exConvR FourDOut.exConvQ 2 exFiles [('i', chars% "<.sgy"), ('o', chars% "m.kml")] =
    .ok (some text) ∧ readXml text = none :=
  C98_markup_refuted (names := [chars% "<.sgy"]) (folderName := chars% "SEG-Y") (fun _ => rfl) (fun _ => rfl) (by omega) (exGives [])
    ⟨by decide, ⟨_, rfl, by decide⟩, rfl, Or.inl rfl, rfl, Or.inl ⟨_, rfl, ⟨chars% "<.sg", Or.inl rfl⟩, rfl⟩⟩
    ⟨by decide, by decide⟩ (fun n hn => by
      rw [List.mem_singleton] at hn
      subst hn
      obtain ⟨i, h, -⟩ := exMap_segy true (n := 3) (by omega) (by omega)
      exact Or.inr ⟨_, i, rfl, Or.inl h⟩)
    (pre := []) (post := []) rfl (by simp) ⟨[], chars% ".sgy", ⟨by decide, by decide⟩, Or.inl ⟨rfl, by decide⟩⟩

/-- The hypotheses of `C98_empty_refuted`: a name that is not there. -/
example : ∃ text all, main exStof exUtm FourDOut.exConvR FourDOut.exConvQ 2 exFiles [('i', chars% "c.sgy"), ('o', chars% "m.kml")] =
    .ok (some text) ∧ readXml text = some all ∧ labels all = [chars% "c.sgy"] ∧
    (paths all)[0]? = some [[['0', '.', '0'], ['0', '.', '0'], ['0']], [['0', '.', '0'], ['0', '.', '0'], ['0']]] :=
  C98_empty_refuted (names := [chars% "c.sgy"]) (folderName := chars% "SEG-Y") (fun _ => rfl) (fun _ => rfl) (by omega) (exGives [])
    ⟨by decide, ⟨_, rfl, by decide⟩, rfl, Or.inl rfl, rfl, Or.inl ⟨_, rfl, ⟨chars% "c.sg", Or.inl rfl⟩, rfl⟩⟩
    ⟨by decide, by decide⟩ (fun n hn => by
      rw [List.mem_singleton] at hn
      subst hn
      exact ⟨⟨by decide, by decide⟩, Or.inl rfl⟩) (n := chars% "c.sgy") rfl (Or.inl rfl)

/-- The hypotheses of `C98_degrees_refuted`: a survey at 100 degrees east. -/
example : ∃ text all path, main exStof exUtm FourDOut.exConvR FourDOut.exConvQ 2 exFiles [('i', chars% "list"), ('o', chars% "m.kml")] =
    .ok (some text) ∧ readXml text = some all ∧ (paths all)[1]? = some path ∧
    ∀ p ∈ path, ∃ lon lat, p = [lon, lat, ['0']] ∧ 91 ≤ readDecimal lat := by
  obtain ⟨i, h1, h2, h3⟩ := exMap_segy false (n := 3) (by omega) (by omega)
  refine C98_degrees_refuted (fun _ => rfl) (fun _ => rfl) (by omega) (exGives []) exListed ⟨by decide, by decide⟩ exSegy
    (j := 1) (n := chars% "b.sgy") rfl rfl h1.opens fun t _ => ?_
  rw [h2, exMap_x]
  norm_num

theorem ends_t : ¬EndsInY (chars% "a.segyt") := by
  rw [show chars% "a.segyt" = chars% "a.segy" ++ ['t'] from rfl, endsInY_iff]
  decide

/-- The hypotheses of `C98_dropped_refuted` and `C98_nothing_refuted`: the first name ends in `t`. -/
example : main exStof exUtm FourDOut.exConvR FourDOut.exConvQ 2 exFiles
    [('i', chars% "a.segyt"), ('i', chars% "b.sgy"), ('o', chars% "m.kml")] =
    main exStof exUtm FourDOut.exConvR FourDOut.exConvQ 2 exFiles [('i', chars% "a.segyt"), ('o', chars% "m.kml")] ∧
    ∃ text all, main exStof exUtm FourDOut.exConvR FourDOut.exConvQ 2 exFiles
      [('i', chars% "a.segyt"), ('i', chars% "b.sgy"), ('o', chars% "m.kml")] = .ok (some text) ∧ readXml text = some all ∧
      labels all = [] :=
  ⟨C98_dropped_refuted (by decide) (by decide) ⟨_, rfl, by decide⟩ ⟨_, rfl, by decide⟩ rfl rfl rfl rfl rfl ends_t,
    C98_nothing_refuted (by decide) ⟨_, rfl, by decide⟩ rfl rfl rfl (by decide) ends_t rfl⟩

/-- The hypotheses of `C98_unnamed_refuted`. -/
example : main exStof exUtm FourDOut.exConvR FourDOut.exConvQ 2 exFiles [('i', []), ('o', chars% "m.kml")] = .ub :=
  C98_unnamed_refuted (by decide) ⟨_, rfl, by decide⟩ rfl rfl

/-- The hypotheses of `C98_zone_refuted`: the zone `N`. -/
example : main exStof exUtm FourDOut.exConvR FourDOut.exConvQ 2 exFiles
    [('i', chars% "a.sgy"), ('z', ['N']), ('o', chars% "m.kml")] = .abort :=
  C98_zone_refuted (by decide) ⟨_, rfl, by decide⟩ (by decide) (w := []) rfl (by decide) rfl

end Verif.KmlTool
