import Verif.Util.FourDMain
import Verif.Props.FourDSingle
import Verif.Props.RadonTool
import Verif.Props.SortMain

/-!
# C107: 4D binning with the program `fourdbin`, from the arguments and files to the files

The claim: called with two surveys and two names, `fourdbin` writes the matched traces of each survey under its name, as many in both
and in the same order, leaves the other files alone, and with `-v` leaves a record of the matches.
-/

namespace Verif.FourDMain
open Verif.Endian Verif.Files Verif.Params Verif.Flow Verif.Scalar Verif.Util Verif.Options Verif.FourDOut Verif.FourDSingle
open Verif.FP32 Verif.Layout Verif.Sort
open Verif.ConcatTool (World)
open Verif.Life (Name)

/-! ## The options -/

/-- An option of `fourdbin`. -/
inductive Arg where
  | a (s : Name)
  | b (s : Name)
  | c (s : Name)
  | d (s : Name)
  | t (s : Name)
  | v
  | p
  | x

def Arg.given : Arg → Given
  | .a s => .apart 'a' s
  | .b s => .apart 'b' s
  | .c s => .apart 'c' s
  | .d s => .apart 'd' s
  | .t s => .apart 't' s
  | .v => .flag 'v'
  | .p => .flag 'p'
  | .x => .flag 'x'

def Arg.a? : Arg → Option Name | .a s => some s | _ => none
def Arg.b? : Arg → Option Name | .b s => some s | _ => none
def Arg.c? : Arg → Option Name | .c s => some s | _ => none
def Arg.d? : Arg → Option Name | .d s => some s | _ => none
def Arg.t? : Arg → Option Name | .t s => some s | _ => none
def Arg.v? : Arg → Bool | .v => true | _ => false
def Arg.p? : Arg → Bool | .p => true | _ => false
def Arg.x? : Arg → Bool | .x => true | _ => false

/-- **C107**. The options of `fourdbin` in any order: of each name and of the limit the last counts; without a limit it is 1, without
`-p` the criterion is stored, without `-x` the lines do not matter. -/
theorem C107_options (l : List Arg) (val : Name → ℚ) (hl : ∀ s, Arg.t s ∈ l → limit s = .ok (val s)) :
    parse (l.flatMap fun a => a.given.words) = .ok ⟨(l.filterMap Arg.a?).getLast?.getD [], (l.filterMap Arg.b?).getLast?.getD [],
      (l.filterMap Arg.c?).getLast?.getD [], (l.filterMap Arg.d?).getLast?.getD [], ((l.filterMap Arg.t?).getLast?.map val).getD 1,
      l.any Arg.v?, !l.any Arg.p?, l.any Arg.x?⟩ := by
  have e : getopt spec (l.flatMap fun a => a.given.words) = (l.map Arg.given).filterMap Given.means := by
    rw [← Options.C101_options spec (by decide) (l.map Arg.given), List.flatMap_map]
    intro g hg
    obtain ⟨a, -, rfl⟩ := List.mem_map.1 hg
    cases a <;> rfl
  unfold parse
  rw [e]
  have key : ∀ (l : List Arg) (_ : ∀ s, Arg.t s ∈ l → limit s = .ok (val s)) (y : Opts),
      ((l.map Arg.given).filterMap Given.means).foldlM option y = .ok ⟨(l.filterMap Arg.a?).getLast?.getD y.name1,
        (l.filterMap Arg.b?).getLast?.getD y.name2, (l.filterMap Arg.c?).getLast?.getD y.name3,
        (l.filterMap Arg.d?).getLast?.getD y.name4, ((l.filterMap Arg.t?).getLast?.map val).getD y.dsrmax,
        y.verbose || l.any Arg.v?, y.printDsr && !l.any Arg.p?, y.ixline || l.any Arg.x?⟩ := by
    intro l
    induction l with
    | nil => intro _ y; simp
    | cons a l ih =>
      intro hl y
      have ih := ih fun s hs => hl s (List.mem_cons_of_mem _ hs)
      cases a with
      | a s =>
        show ((Res.ok { y with name1 := s } : Res Opts) >>= fun z => ((l.map Arg.given).filterMap Given.means).foldlM option z) = _
        rw [Res.ok_bind, ih]
        simp [Arg.a?, Arg.b?, Arg.c?, Arg.d?, Arg.t?, Arg.v?, Arg.p?, Arg.x?, List.getLast?_cons]
      | b s =>
        show ((Res.ok { y with name2 := s } : Res Opts) >>= fun z => ((l.map Arg.given).filterMap Given.means).foldlM option z) = _
        rw [Res.ok_bind, ih]
        simp [Arg.a?, Arg.b?, Arg.c?, Arg.d?, Arg.t?, Arg.v?, Arg.p?, Arg.x?, List.getLast?_cons]
      | c s =>
        show ((Res.ok { y with name3 := s } : Res Opts) >>= fun z => ((l.map Arg.given).filterMap Given.means).foldlM option z) = _
        rw [Res.ok_bind, ih]
        simp [Arg.a?, Arg.b?, Arg.c?, Arg.d?, Arg.t?, Arg.v?, Arg.p?, Arg.x?, List.getLast?_cons]
      | d s =>
        show ((Res.ok { y with name4 := s } : Res Opts) >>= fun z => ((l.map Arg.given).filterMap Given.means).foldlM option z) = _
        rw [Res.ok_bind, ih]
        simp [Arg.a?, Arg.b?, Arg.c?, Arg.d?, Arg.t?, Arg.v?, Arg.p?, Arg.x?, List.getLast?_cons]
      | t s =>
        show ((limit s >>= fun t => (Res.ok { y with dsrmax := t } : Res Opts)) >>=
          fun z => ((l.map Arg.given).filterMap Given.means).foldlM option z) = _
        rw [hl s (by simp), Res.ok_bind, Res.ok_bind, ih]
        rcases h : (l.filterMap Arg.t?).getLast? with _ | w <;>
        simp [Arg.a?, Arg.b?, Arg.c?, Arg.d?, Arg.t?, Arg.v?, Arg.p?, Arg.x?, List.getLast?_cons, h]
      | v =>
        show ((Res.ok { y with verbose := true } : Res Opts) >>= fun z => ((l.map Arg.given).filterMap Given.means).foldlM option z) = _
        rw [Res.ok_bind, ih]
        simp [Arg.a?, Arg.b?, Arg.c?, Arg.d?, Arg.t?, Arg.v?, Arg.p?, Arg.x?]
      | p =>
        show ((Res.ok { y with printDsr := false } : Res Opts) >>= fun z => ((l.map Arg.given).filterMap Given.means).foldlM option z) = _
        rw [Res.ok_bind, ih]
        simp [Arg.a?, Arg.b?, Arg.c?, Arg.d?, Arg.t?, Arg.v?, Arg.p?, Arg.x?]
      | x =>
        show ((Res.ok { y with ixline := true } : Res Opts) >>= fun z => ((l.map Arg.given).filterMap Given.means).foldlM option z) = _
        rw [Res.ok_bind, ih]
        simp [Arg.a?, Arg.b?, Arg.c?, Arg.d?, Arg.t?, Arg.v?, Arg.p?, Arg.x?]
  rw [key l hl {}]
  simp

/-! ## The limit -/

def signText : Option Bool → Name
  | none => []
  | some true => ['-']
  | some false => ['+']

/-- The text of a fraction: a point, zeros and the digits of a number. -/
def fracText : Option (Nat × Nat) → Name
  | none => []
  | some (z, m) => '.' :: (List.replicate z '0' ++ decimal m)

/-- The text of an exponent. -/
def expText : Option (Option Bool × Nat) → Name
  | none => []
  | some (s, k) => 'e' :: (signText s ++ decimal k)

def fracVal : Option (Nat × Nat) → ℚ
  | none => 0
  | some (z, m) => m / 10 ^ (z + (decimal m).length)

def expVal : Option (Option Bool × Nat) → ℤ
  | none => 0
  | some (s, k) => if s = some true then -k else k

theorem zeros_digit {z m : Nat} : ∀ c ∈ List.replicate z '0' ++ decimal m, c.isDigit = true := by
  intro c hc
  rcases List.mem_append.1 hc with h | h
  · rw [List.eq_of_mem_replicate h]; rfl
  · exact decimal_isDigit c h

theorem zeros_val (z m : Nat) : Nat.ofDigitChars 10 (List.replicate z '0' ++ decimal m) 0 = m := by
  rw [Nat.ofDigitChars_append, Nat.ofDigitChars_replicate_zero, Nat.mul_zero, value_digits]

theorem take_ds {l r : Name} (hl : ∀ c ∈ l, c.isDigit = true) (hr : ∀ c, r.head? = some c → c.isDigit = false) :
    (l ++ r).takeWhile Char.isDigit = l := by
  rw [List.takeWhile_append_of_pos hl]
  cases r with
  | nil => simp
  | cons c r => rw [List.takeWhile_cons, hr c rfl]; simp

theorem drop_ds {l r : Name} (hl : ∀ c ∈ l, c.isDigit = true) (hr : ∀ c, r.head? = some c → c.isDigit = false) :
    (l ++ r).dropWhile Char.isDigit = r := by
  rw [List.dropWhile_append_of_pos hl]
  cases r with
  | nil => simp
  | cons c r => rw [List.dropWhile_cons, hr c rfl]; simp

theorem exp_head (x : Option (Option Bool × Nat)) : ∀ c, (expText x).head? = some c → c.isDigit = false := by
  intro c hc
  cases x with
  | none => simp [expText] at hc
  | some q =>
    simp only [expText, List.head?_cons, Option.some.injEq] at hc
    rw [← hc]
    rfl

theorem exp_dot (x : Option (Option Bool × Nat)) : (expText x).head? ≠ some '.' := by
  cases x with
  | none => simp [expText]
  | some q => simp [expText]

theorem frac_head (fr : Option (Nat × Nat)) (x : Option (Option Bool × Nat)) :
    ∀ c, (fracText fr ++ expText x).head? = some c → c.isDigit = false := by
  intro c hc
  cases fr with
  | none => exact exp_head x c hc
  | some q =>
    simp only [fracText, List.cons_append, List.head?_cons, Option.some.injEq] at hc
    rw [← hc]
    rfl

/-- What is left of the text after the sign. -/
theorem sign_strip (s : Option Bool) (n : Nat) (r : Name) :
    decide ((signText s ++ (decimal n ++ r)).head? = some '-') = decide (s = some true) ∧
    (if (signText s ++ (decimal n ++ r)).head? = some '-' ∨ (signText s ++ (decimal n ++ r)).head? = some '+' then
      (signText s ++ (decimal n ++ r)).tail else signText s ++ (decimal n ++ r)) = decimal n ++ r := by
  obtain ⟨c, l, hc⟩ := List.exists_cons_of_ne_nil (decimal_ne n)
  obtain ⟨p1, p2, p3⟩ := digit_plain (decimal_isDigit c (by rw [hc]; simp))
  rcases s with _ | _ | _
  · simp [signText, hc, p1, p2]
  · simp [signText]
  · simp [signText]

/-- **C107**. The number of a text: blanks, a sign, digits, a fraction, an exponent. -/
theorem C107_number (b : Name) (hb : ∀ c ∈ b, isSpace c = true) (s : Option Bool) (n : Nat) (fr : Option (Nat × Nat))
    (x : Option (Option Bool × Nat)) :
    number (b ++ (signText s ++ (decimal n ++ (fracText fr ++ expText x)))) =
      some ((if s = some true then -1 else 1) * ((n + fracVal fr) * 10 ^ expVal x)) := by
  obtain ⟨c, l, hc⟩ := List.exists_cons_of_ne_nil (decimal_ne n)
  obtain ⟨p1, p2, p3⟩ := digit_plain (decimal_isDigit c (by rw [hc]; simp))
  have h1 : (b ++ (signText s ++ (decimal n ++ (fracText fr ++ expText x)))).dropWhile isSpace =
      signText s ++ (decimal n ++ (fracText fr ++ expText x)) := by
    rw [List.dropWhile_append_of_pos hb]
    rcases s with _ | _ | _
    · simp [signText, hc, p3]
    · rfl
    · rfl
  obtain ⟨h2, h3⟩ := sign_strip s n (fracText fr ++ expText x)
  have h4 := take_ds (@decimal_isDigit n) (frac_head fr x)
  have h5 := drop_ds (@decimal_isDigit n) (frac_head fr x)
  unfold number
  simp only [h1, h2, h3, h4, h5]
  -- the fraction
  obtain ⟨ds, hds, hfr⟩ : ∃ ds, (if (fracText fr ++ expText x).head? = some '.' then (fracText fr ++ expText x).tail.takeWhile Char.isDigit
      else []) = ds ∧ ((n : ℚ) + fracVal fr) = (Nat.ofDigitChars 10 (decimal n ++ ds) 0 : ℕ) * 10 ^ (-(ds.length : ℤ)) := by
    cases fr with
    | none =>
      refine ⟨[], ?_, ?_⟩
      · exact if_neg (exp_dot x)
      · simp [fracVal, value_digits]
    | some q =>
      obtain ⟨z, m⟩ := q
      refine ⟨List.replicate z '0' ++ decimal m, ?_, ?_⟩
      · rw [if_pos (by rfl)]
        exact take_ds zeros_digit (exp_head x)
      · have hl : (List.replicate z '0' ++ decimal m).length = z + (decimal m).length := by simp
        rw [Nat.ofDigitChars_append, value_digits, Nat.ofDigitChars_eq_ofDigitChars_zero, zeros_val, hl]
        push_cast
        rw [zpow_neg, ← Nat.cast_add, zpow_natCast]
        unfold fracVal
        dsimp only
        generalize z + (decimal m).length = k
        field_simp
  have hrest : (if (fracText fr ++ expText x).head? = some '.' then (fracText fr ++ expText x).tail.dropWhile Char.isDigit
      else fracText fr ++ expText x) = expText x := by
    cases fr with
    | none => exact if_neg (exp_dot x)
    | some q =>
      obtain ⟨z, m⟩ := q
      rw [if_pos (by rfl)]
      exact drop_ds zeros_digit (exp_head x)
  simp only [hds, hrest]
  rw [if_neg (by simp [decimal_ne]), hfr]
  have hfin : ∀ (k : ℤ) (_ : k = expVal x) (v : ℚ), (if decide (s = some true) = true then -(v * 10 ^ (k - ds.length)) else v * 10 ^ (k - ds.length)) =
      (if s = some true then -1 else 1) * (v * 10 ^ (-(ds.length : ℤ)) * 10 ^ expVal x) := by
    rintro k rfl v
    rw [mul_assoc, ← zpow_add₀ (by norm_num), neg_add_eq_sub]
    by_cases h : s = some true
    · simp [h]
    · simp [h]
  rw [Option.some.injEq]
  refine hfin _ ?_ _
  cases x with
  | none => simp [expText, expVal]
  | some q =>
    obtain ⟨t, k⟩ := q
    obtain ⟨g1, g2⟩ := sign_strip t k []
    rw [List.append_nil] at g1 g2
    have g3 := take_ds (@decimal_isDigit k) (r := []) (by simp)
    rw [List.append_nil] at g3
    have g4 : (if (expText (some (t, k))).head? = some 'e' ∨ (expText (some (t, k))).head? = some 'E' then (expText (some (t, k))).tail else []) =
        signText t ++ decimal k := by
      simp [expText]
    simp only [g4, g1, g2, g3, value_digits, expVal, decide_eq_true_eq]

/-- **C107**. The limit of a text is the number it says, up to the rounding to a float; a number that is a float is taken as it is. -/
theorem C107_limit (s : Name) (q : ℚ) (hq : number s = some q) (hr : q = 0 ∨ (2 ^ (-100 : ℤ) ≤ |q| ∧ |q| ≤ 2 ^ 100)) :
    ∃ v, limit s = .ok v ∧ |v - q| ≤ |q| / 2 ^ 23 ∧ IsSingle v ∧ (IsSingle q → v = q) := by
  have h53 : |FP.rnd q - q| ≤ |q| / 2 ^ 53 := by
    rcases hr with rfl | ⟨h1, -⟩
    · simp [FP.rnd_zero]
    · exact FP.rnd_err (le_trans (zpow_le_zpow_right₀ (by norm_num) (by norm_num)) h1)
  have hle : |q| ≤ 2 ^ 100 := by
    rcases hr with rfl | ⟨-, h2⟩
    · norm_num
    · exact h2
  have hd : |FP.rnd q| ≤ 2 ^ 101 := by
    have := abs_add_le (FP.rnd q - q) q
    rw [sub_add_cancel] at this
    norm_num at *
    linarith
  have hbig : |FP.rnd q| < 2 ^ 1024 := lt_of_le_of_lt hd (pow_lt_pow_right₀ (by norm_num) (by norm_num))
  have hst : stod s = .ok (FP.rnd q) := by
    unfold stod
    rw [hq]
    dsimp only
    rw [if_neg]
    rintro (h | ⟨h, h'⟩)
    · exact absurd hbig (not_lt.2 h)
    · rcases hr with rfl | ⟨h1, -⟩
      · exact h' FP.rnd_zero
      · exact absurd (lt_of_le_of_lt h1 h) (not_lt.2 (zpow_le_zpow_right₀ (by norm_num) (by norm_num)))
  refine ⟨FP32.rnd (FP.rnd q), ?_, ?_, isSingle_rnd _, ?_⟩
  · unfold limit
    rw [hst, Res.ok_bind, if_neg]
    refine not_lt.2 (le_trans hd ?_)
    unfold maxS
    norm_num
  · rcases hr with rfl | ⟨h1, -⟩
    · simp [FP.rnd_zero, FP32.rnd_zero]
    · have h2 : (2 : ℚ) ^ (-126 : ℤ) ≤ |FP.rnd q| := by
        have := abs_add_le (q - FP.rnd q) (FP.rnd q)
        rw [sub_add_cancel, abs_sub_comm] at this
        have h3 : (2 : ℚ) ^ (-126 : ℤ) ≤ 2 ^ (-100 : ℤ) / 2 := by norm_num
        generalize (2 : ℚ) ^ (-126 : ℤ) = u at *
        generalize (2 : ℚ) ^ (-100 : ℤ) = w at *
        have h4 : |q| / 2 ^ 53 ≤ |q| / 2 := div_le_div_of_nonneg_left (abs_nonneg _) (by norm_num) (by norm_num)
        linarith
      have h3 := FP32.rnd_err h2
      have h4 := abs_add_le (FP32.rnd (FP.rnd q) - FP.rnd q) (FP.rnd q - q)
      rw [sub_add_sub_cancel] at h4
      have h5 := abs_add_le (FP.rnd q - q) q
      rw [sub_add_cancel] at h5
      have h6 := abs_nonneg q
      norm_num at *
      linarith
  · intro h
    have : FP.rnd q = q := by
      refine FP.rnd_double ?_
      obtain ⟨m, e, k1, k2, k3⟩ := h
      exact ⟨m, e, lt_trans k1 (by norm_num), by omega, k3⟩
    rw [this, rnd_single h]

/-- Half a metre, and a thousandth of one. -/
example : limit "0.5".toList = .ok (1 / 2) ∧ ∃ v, limit " +1e-3".toList = .ok v ∧ |v - 1 / 1000| ≤ 1 / 2 ^ 32 := by
  have h1 := C107_number [] (by simp) none 0 (some (0, 5)) none
  have h2 := C107_number [' '] (by decide) (some false) 1 none (some (some true, 3))
  have e1 : [] ++ (signText none ++ (decimal 0 ++ (fracText (some (0, 5)) ++ expText none))) = "0.5".toList := by decide +kernel
  have e2 : [' '] ++ (signText (some false) ++ (decimal 1 ++ (fracText none ++ expText (some (some true, 3))))) = " +1e-3".toList := by decide +kernel
  have e3 : (decimal 5).length = 1 := by decide +kernel
  rw [e1] at h1
  rw [e2] at h2
  simp only [fracVal, expVal, e3, reduceCtorEq, if_false] at h1 h2
  norm_num at h1 h2
  obtain ⟨v, k1, -, -, k2⟩ := C107_limit _ _ h1 (Or.inr (by rw [abs_of_pos (by norm_num)]; norm_num))
  obtain ⟨u, m1, m2, -⟩ := C107_limit _ _ h2 (Or.inr (by rw [abs_of_pos (by norm_num)]; norm_num))
  refine ⟨?_, u, m1, le_trans m2 (by rw [abs_of_pos (by norm_num)]; norm_num)⟩
  rw [k1, k2 ⟨1, -1, by norm_num, by norm_num, by norm_num⟩]

/-- **C107** fails for limits no float can hold, which are not checked: undefined behaviour. -/
theorem C107_limit_refuted (s : Name) (q : ℚ) (hq : number s = some q) (h1 : 2 ^ 129 ≤ |q|) (h2 : |q| ≤ 2 ^ 1000) :
    limit s = .ub := by
  have h53 : |FP.rnd q - q| ≤ |q| / 2 ^ 53 := FP.rnd_err (le_trans (le_trans (zpow_le_zpow_right₀ (by norm_num) (by norm_num))
    (show (2 : ℚ) ^ (0 : ℤ) ≤ 2 ^ 129 by norm_num)) h1)
  have h5 := abs_add_le (FP.rnd q - q) q
  rw [sub_add_cancel] at h5
  have h6 := abs_add_le (q - FP.rnd q) (FP.rnd q)
  rw [sub_add_cancel, abs_sub_comm] at h6
  have h7 : |q| / 2 ^ 53 ≤ |q| / 2 := div_le_div_of_nonneg_left (abs_nonneg _) (by norm_num) (by norm_num)
  have hlt : |FP.rnd q| < 2 ^ 1024 := by
    refine lt_of_le_of_lt (b := 2 ^ 1000 * 2) ?_ ?_
    · generalize (2 : ℚ) ^ 1000 = B at *
      linarith [abs_nonneg q]
    · rw [← pow_succ]
      exact pow_lt_pow_right₀ (by norm_num) (by norm_num)
  have hst : stod s = .ok (FP.rnd q) := by
    unfold stod
    rw [hq]
    dsimp only
    rw [if_neg]
    rintro (h | ⟨h, -⟩)
    · exact absurd hlt (not_lt.2 h)
    · have h8 : (2 : ℚ) ^ (-1022 : ℤ) ≤ 2 ^ (0 : ℤ) := zpow_le_zpow_right₀ (by norm_num) (by norm_num)
      generalize (2 : ℚ) ^ (-1022 : ℤ) = B at *
      norm_num at h1 h8
      linarith
  unfold limit
  rw [hst, Res.ok_bind, if_pos]
  unfold maxS
  norm_num at h1 ⊢
  linarith

example : limit "1e40".toList = .ub := by
  have h1 := C107_number [] (by simp) none 1 none (some (none, 40))
  have e1 : [] ++ (signText none ++ (decimal 1 ++ (fracText none ++ expText (some (none, 40))))) = "1e40".toList := by decide +kernel
  rw [e1] at h1
  simp only [fracVal, expVal, reduceCtorEq, if_false] at h1
  norm_num at h1
  refine C107_limit_refuted _ _ h1 (by rw [abs_of_pos (by norm_num)]; norm_num) ?_
  rw [abs_of_pos (by norm_num)]
  exact le_trans (show (_ : ℚ) ≤ 2 ^ 200 by norm_num) (pow_le_pow_right₀ (by norm_num) (by norm_num))

/-- A text that is no number ends the program. -/
theorem C107_nonumber (s : Name) (hs : ∀ c ∈ s, c.isDigit = false) : limit s = .abort := by
  have hsub : ∀ (t : Name), (∀ c ∈ t, c.isDigit = false) → t.takeWhile Char.isDigit = [] ∧ t.dropWhile Char.isDigit = t := by
    intro t ht
    cases t with
    | nil => simp
    | cons c t => simp [ht c (by simp)]
  have hn : number s = none := by
    unfold number
    have h1 : ∀ c ∈ s.dropWhile isSpace, c.isDigit = false := fun c hc => hs c ((List.dropWhile_sublist _).mem hc)
    generalize s.dropWhile isSpace = t at *
    have h2 : ∀ c ∈ (if t.head? = some '-' ∨ t.head? = some '+' then t.tail else t), c.isDigit = false := by
      intro c hc
      split_ifs at hc
      · exact h1 c (List.mem_of_mem_tail hc)
      · exact h1 c hc
    dsimp only
    generalize (if t.head? = some '-' ∨ t.head? = some '+' then t.tail else t) = u at *
    obtain ⟨h3, h4⟩ := hsub u h2
    obtain ⟨h5, -⟩ := hsub u.tail fun c hc => h2 c (List.mem_of_mem_tail hc)
    rw [h3, h4, if_pos]
    refine ⟨rfl, ?_⟩
    split_ifs
    · exact h5
    · rfl
  unfold limit stod
  rw [hn]
  rfl

example : limit "ten".toList = .abort := C107_nonumber _ (by decide)

/-! ## The steps -/

theorem output_ok {cvd : Conv ℚ ℚ} {idx : List Nat → List Nat} {sched : List (Put ℚ) → List (Put ℚ)} {printDsr : Bool}
    {dname sname : Name} {lists : List (List Nat × List ℚ)} {w w' : World} :
    output cvd idx sched printDsr dname sname lists w = .ok w' ↔ ∃ d o, w sname = some d ∧ dname ≠ [] ∧ dname ≠ sname ∧
      outputNonMono dbl asInt cvd 0 idx sched printDsr d lists ((w dname).getD ⟨0, fun _ => 0#8⟩) = .ok o ∧
      w' = Function.update w dname (some o) := by
  unfold output
  cases h : w sname with
  | none => simp
  | some d =>
    dsimp only
    by_cases h1 : dname = []
    · rw [if_pos h1]
      simp [h1]
    · by_cases h2 : dname = sname
      · rw [if_neg h1, if_pos h2]
        simp [h2]
      · rw [if_neg h1, if_neg h2]
        constructor
        · intro hb
          obtain ⟨o, ho, hb⟩ := of_bind hb
          rw [Res.ok.injEq] at hb
          exact ⟨d, o, rfl, h1, h2, ho, hb.symm⟩
        · rintro ⟨d', o, hd, -, -, ho, rfl⟩
          rw [Option.some.injEq] at hd
          subst hd
          rw [ho, Res.ok_bind]

theorem decimal_inj {a b : Nat} (h : decimal a = decimal b) : a = b := by
  rw [← value_digits a, h, value_digits]

theorem restartName_inj {a b : Nat} (h : restartName a = restartName b) : a = b := by
  unfold restartName at h
  exact decimal_inj (List.append_cancel_left h)

theorem restarts_other (asserts : Bool) (bits : ℚ → BitVec 32) : ∀ (ms : List (List (Nat × Nat × ℚ))) (r : Nat) (w : World) (n : Name),
    (∀ i, i < ms.length → n ≠ restartName (r + i)) → restarts asserts bits r ms w n = w n := by
  intro ms
  induction ms with
  | nil => intros; rfl
  | cons m ms ih =>
    intro r w n h
    unfold restarts
    rw [ih (r + 1) _ n fun i hi => by
      have := h (i + 1) (by rw [List.length_cons]; omega)
      rwa [show r + 1 + i = r + (i + 1) by omega]]
    exact Function.update_of_ne (h 0 (by simp)) _ _

theorem restarts_at (asserts : Bool) (bits : ℚ → BitVec 32) : ∀ (ms : List (List (Nat × Nat × ℚ))) (r : Nat) (w : World) (i : Nat) m,
    ms[i]? = some m → restarts asserts bits r ms w (restartName (r + i)) = some (fileOf (if asserts then restartBytes bits m else [])) := by
  intro ms
  induction ms with
  | nil => intro r w i m h; simp at h
  | cons m ms ih =>
    intro r w i m' h
    unfold restarts
    cases i with
    | zero =>
      rw [List.getElem?_cons_zero, Option.some.injEq] at h
      subst h
      rw [Nat.add_zero, restarts_other _ _ _ _ _ _ fun i _ h => by have := restartName_inj h; omega]
      exact Function.update_self _ _ _
    | succ i =>
      rw [List.getElem?_cons_succ] at h
      rw [← ih (r + 1) (Function.update w (restartName r) (some (fileOf (if asserts then restartBytes bits m else [])))) i m' h,
        show r + (i + 1) = r + 1 + i by omega]

/-! ### The bytes of the record -/

/-- The number in `n` bytes of a file from `p` on, the lowest first. -/
def little (d : Disk) (p n : Nat) : Nat := ((List.range n).map fun i => (d.byte (p + i)).toNat * 256 ^ i).sum

theorem le64_length (n : Nat) : (le64 n).length = 8 := by simp [le64]
theorem le32_length (b : BitVec 32) : (le32 b).length = 4 := by simp [le32]

theorem sum_digits (n k : Nat) : ((List.range k).map fun i => n / 256 ^ i % 256 * 256 ^ i).sum = n % 256 ^ k := by
  induction k with
  | zero => simp [Nat.mod_one]
  | succ k ih =>
    rw [List.range_succ, List.map_append, List.sum_append, ih, Nat.mod_pow_succ]
    simp [Nat.mul_comm]

theorem little_of {d : Disk} {p n k : Nat} (hn : n < 256 ^ k)
    (h : ∀ i, i < k → ((List.range k).map fun i => BitVec.ofNat 8 (n / 256 ^ i))[i]? = some (d.byte (p + i))) : little d p k = n := by
  rw [← Nat.mod_eq_of_lt hn, ← sum_digits]
  unfold little
  congr 1
  refine List.map_congr_left fun i hi => ?_
  have hi := List.mem_range.1 hi
  have := h i hi
  rw [List.getElem?_map, List.getElem?_range hi, Option.map_some, Option.some.injEq] at this
  rw [← this, BitVec.toNat_ofNat]

theorem little64 {d : Disk} {p n : Nat} (hn : n < 2 ^ 64) (h : ∀ i, i < 8 → (le64 n)[i]? = some (d.byte (p + i))) : little d p 8 = n :=
  little_of (lt_of_lt_of_le hn (by norm_num)) h

theorem little32 {d : Disk} {p : Nat} {b : BitVec 32} (h : ∀ i, i < 4 → (le32 b)[i]? = some (d.byte (p + i))) : little d p 4 = b.toNat :=
  little_of (lt_of_lt_of_le b.isLt (by norm_num)) h

/-- The record of the matches `m`: their number, the traces of the first file, those of the second, the criteria. -/
structure Recorded (bits : ℚ → BitVec 32) (m : List (Nat × Nat × ℚ)) (d : Disk) : Prop where
  size : d.size = 8 + 20 * m.length
  count : little d 0 8 = m.length
  items : ∀ i a b v, m[i]? = some (a, b, v) → little d (8 + 8 * i) 8 = a ∧ little d (8 + 8 * m.length + 8 * i) 8 = b ∧
    little d (8 + 16 * m.length + 4 * i) 4 = (bits v).toNat

theorem const_length {α : Type} (f : α → List Byte) (n : Nat) (l : List α) (h : ∀ a, (f a).length = n) : (l.flatMap f).length = n * l.length := by
  induction l with
  | nil => simp
  | cons a l ih => rw [List.flatMap_cons, List.length_append, h, ih, List.length_cons, Nat.mul_succ]; omega

theorem fileOf_byte {l : List Byte} {x : Nat} {b : Byte} (h : l[x]? = some b) : (fileOf l).byte x = b := by
  show l.getD x 0#8 = b
  rw [List.getD_eq_getElem?_getD, h]; rfl

theorem recorded (bits : ℚ → BitVec 32) (m : List (Nat × Nat × ℚ)) (hm : m.length < 2 ^ 64)
    (hlt : ∀ a b v, (a, b, v) ∈ m → a < 2 ^ 64 ∧ b < 2 ^ 64) : Recorded bits m (fileOf (restartBytes bits m)) := by
  have l1 := const_length (fun q : Nat × Nat × ℚ => le64 q.1) 8 m fun _ => le64_length _
  have l2 := const_length (fun q : Nat × Nat × ℚ => le64 q.2.1) 8 m fun _ => le64_length _
  have l3 := const_length (fun q : Nat × Nat × ℚ => le32 (bits q.2.2)) 4 m fun _ => le32_length _
  refine ⟨?_, ?_, ?_⟩
  · show (restartBytes bits m).length = _
    unfold restartBytes
    rw [List.length_append, List.length_append, List.length_append, l1, l2, l3, le64_length]
    omega
  · refine little64 hm fun i hi => ?_
    obtain ⟨b, hb⟩ : ∃ b, (le64 m.length)[i]? = some b := ⟨_, List.getElem?_eq_getElem (by rw [le64_length]; exact hi)⟩
    rw [hb, fileOf_byte (b := b)]
    unfold restartBytes
    rw [Nat.zero_add, List.append_assoc, List.append_assoc, List.getElem?_append_left (by rw [le64_length]; exact hi), hb]
  · intro i a b v h
    obtain ⟨ha, hb⟩ := hlt a b v (List.mem_of_getElem? h)
    have hi : i < m.length := (List.getElem?_eq_some_iff.1 h).1
    refine ⟨?_, ?_, ?_⟩
    · refine little64 ha fun x hx => ?_
      obtain ⟨c, hc⟩ : ∃ c, (le64 a)[x]? = some c := ⟨_, List.getElem?_eq_getElem (by rw [le64_length]; exact hx)⟩
      rw [hc, fileOf_byte (b := c)]
      unfold restartBytes
      rw [List.append_assoc, List.append_assoc, List.getElem?_append_right (by rw [le64_length]; omega), le64_length,
        List.getElem?_append_left (by rw [l1]; omega), show 8 + 8 * i + x - 8 = i * 8 + x by omega,
        RadonTool.flatMap_get _ 8 m (fun _ _ => le64_length _) i x hx, h]
      exact hc
    · refine little64 hb fun x hx => ?_
      obtain ⟨c, hc⟩ : ∃ c, (le64 b)[x]? = some c := ⟨_, List.getElem?_eq_getElem (by rw [le64_length]; exact hx)⟩
      rw [hc, fileOf_byte (b := c)]
      unfold restartBytes
      rw [List.append_assoc, List.append_assoc, List.getElem?_append_right (by rw [le64_length]; omega), le64_length,
        List.getElem?_append_right (by rw [l1]; omega), l1,
        List.getElem?_append_left (by rw [l2]; omega), show 8 + 8 * m.length + 8 * i + x - 8 - 8 * m.length = i * 8 + x by omega,
        RadonTool.flatMap_get _ 8 m (fun _ _ => le64_length _) i x hx, h]
      exact hc
    · refine little32 fun x hx => ?_
      obtain ⟨c, hc⟩ : ∃ c, (le32 (bits v))[x]? = some c := ⟨_, List.getElem?_eq_getElem (by rw [le32_length]; exact hx)⟩
      rw [hc, fileOf_byte (b := c)]
      unfold restartBytes
      rw [List.append_assoc, List.append_assoc, List.getElem?_append_right (by rw [le64_length]; omega), le64_length,
        List.getElem?_append_right (by rw [l1]; omega), l1,
        List.getElem?_append_right (by rw [l2]; omega), l2,
        show 8 + 16 * m.length + 4 * i + x - 8 - 8 * m.length - 8 * m.length = i * 4 + x by omega,
        RadonTool.flatMap_get _ 4 m (fun _ _ => le32_length _) i x hx, h]
      exact hc

/-! ### The whole program -/

/-- What the theorems ask of the surveys and of the environment: a square root with the error of the standard, sorts that sort, any
order of the writes, at least one process, two files that are no IBM files and have coordinates of `2 ^ (E + 24)` at most, and a limit
that can be stored. -/
structure Ready (f : ℚ → ℚ) (E : ℤ) (cvd : Conv ℚ ℚ) (srt : List XRec → List XRec) (idx : List Nat → List Nat)
    (sched : List (Put ℚ) → List (Put ℚ)) (P : Nat) (dmax : ℚ) (d1 d2 : Disk) (i1 i2 : Info) : Prop where
  root : GoodRoot f
  exp : -60 ≤ E
  lim0 : 0 ≤ dmax
  lim1 : dmax ≤ 2 ^ 31 - 1
  conv : ∀ v, cvd.toF v = v
  sorts : IsSort xLess srt
  index : IsSortIndex idx
  order : ∀ l, (sched l).Perm l
  procs : 0 < P
  src1 : Source d1 i1
  src2 : Source d2 i2
  nt1 : i1.nt ≤ 6100805 * P
  nt2 : i2.nt ≤ 6100805 * P
  size : 3600 + i1.nt * (240 + 4 * i2.ns) < 2 ^ 63
  within1 : Within E d1 i1
  within2 : Within E d2 i2

/-- The two outputs of matched traces. -/
structure Written (printDsr : Bool) (d1 d2 : Disk) (i1 i2 : Info) (pairs : List (Nat × Nat × ℚ)) (o1 o2 : Disk) : Prop where
  opens1 : openRead o1 = .ok ⟨i1.ns, pairs.length, i1.inc, 5#16, shown title⟩
  opens2 : openRead o2 = .ok ⟨i2.ns, pairs.length, i2.inc, 5#16, shown title⟩
  traces : ∀ j a b v, pairs[j]? = some (a, b, v) →
    Copied dbl printDsr i1.ns d1 a o1 j v ∧ Copied dbl printDsr i2.ns d2 b o2 j v

theorem ready_core {f : ℚ → ℚ} {E : ℤ} {cvd : Conv ℚ ℚ} {srt : List XRec → List XRec} {idx : List Nat → List Nat}
    {sched : List (Put ℚ) → List (Put ℚ)} {P : Nat} {d1 d2 : Disk} {i1 i2 : Info} {o : Opts}
    (R : Ready f E cvd srt idx sched P o.dsrmax d1 d2 i1 i2) (dflt : Crd ℚ) :
    ∃ n c1s c2s, Held rnd dflt o.ixline P d1 i1 c1s ∧ Held rnd dflt o.ixline P d2 i2 c2s ∧
      (∀ fuel, n ≤ fuel → getCoords rnd srt fuel idx dflt o.ixline P d1 = .ok c1s ∧ getCoords rnd srt fuel idx dflt o.ixline P d2 = .ok c2s) ∧
      ∀ ms, search f o c1s c2s = .ok ms → ms.length = P ∧ Chosen E o.dsrmax o.ixline d1 d2 i1 i2 c1s c2s ms.flatten ∧
        (ms.flatten.length ≤ i1.nt ∧ ∀ q ∈ ms.flatten, |q.2.2| ≤ 2 ^ 31 - 1) ∧
        ∀ printDsr out1 out2, ∃ o1 o2, writeBoth dbl asInt cvd 0 idx sched printDsr d1 d2 ms out1 out2 = .ok (o1, o2) ∧
          Written printDsr d1 d2 i1 i2 ms.flatten o1 o2 := by
  have key := fun printDsr => bin_core (geoS f o.ixline o.dsrmax) (fun _ => rfl) (fun _ => rfl)
    (fun x y hxy => rnd_mono (by linarith)) (fun x y hxy => rnd_mono (by linarith)) rnd (fun x y hxy => rnd_mono hxy) cvd srt R.sorts
    idx R.index sched R.order dflt o.ixline printDsr P R.procs d1 d2 i1 i2 R.src1 R.src2 R.nt1 R.nt2
    (fun k _ => hi_below R.lim0 R.lim1 dflt d1 _ k)
    (fun k _ => hi_below R.lim0 R.lim1 dflt d2 _ k) (fun _ t u hc => by
      rw [R.conv, abs_of_nonneg (crit_nonneg R.root t u)]
      exact le_trans hc R.lim1) R.size
  obtain ⟨n, c1s, c2s, H1, H2, he, hw⟩ := key true
  obtain ⟨n', c1s', c2s', -, -, he', hw'⟩ := key false
  have e1 := (he (max n n') (le_max_left _ _)).1
  rw [(he' (max n n') (le_max_right _ _)).1, Res.ok.injEq] at e1
  have e2 := (he (max n n') (le_max_left _ _)).2
  rw [(he' (max n n') (le_max_right _ _)).2, Res.ok.injEq] at e2
  subst e1 e2
  refine ⟨n, _, _, H1, H2, he, fun ms hms => ?_⟩
  obtain ⟨a1, a2, a3, a4⟩ := hw ms hms
  obtain ⟨-, -, -, a5⟩ := hw' ms hms
  refine ⟨a1, chosen_of R.root R.exp R.lim1 R.within1 R.within2 H1 H2 a2, ⟨a3, fun q hq => ?_⟩, fun printDsr out1 out2 => ?_⟩
  · obtain ⟨a, b, v⟩ := q
    obtain ⟨-, -, h3, h4⟩ := a2.real a b v hq
    show |v| ≤ _
    rw [h3] at h4 ⊢
    rw [abs_of_nonneg (crit_nonneg R.root _ _)]
    exact le_trans h4 R.lim1
  have fin : ∀ p, (∃ o1 o2, writeBoth dbl asInt cvd 0 idx sched p d1 d2 ms out1 out2 = .ok (o1, o2) ∧
          openRead o1 = .ok ⟨i1.ns, ms.flatten.length, i1.inc, 5#16, shown title⟩ ∧
          openRead o2 = .ok ⟨i2.ns, ms.flatten.length, i2.inc, 5#16, shown title⟩ ∧
          ∀ j a b v, ms.flatten[j]? = some (a, b, v) →
            Copied dbl p i1.ns d1 a o1 j (cvd.toF v) ∧ Copied dbl p i2.ns d2 b o2 j (cvd.toF v)) →
      ∃ o1 o2, writeBoth dbl asInt cvd 0 idx sched p d1 d2 ms out1 out2 = .ok (o1, o2) ∧
          Written p d1 d2 i1 i2 ms.flatten o1 o2 := by
    rintro p ⟨o1, o2, k1, k2, k3, k4⟩
    refine ⟨o1, o2, k1, k2, k3, fun j a b v hj => ?_⟩
    have := k4 j a b v hj
    rwa [R.conv] at this
  cases printDsr with
  | true => exact fin true (a4 out1 out2)
  | false => exact fin false (a5 out1 out2)

theorem writeBoth_ok {cvd : Conv ℚ ℚ} {idx : List Nat → List Nat} {sched : List (Put ℚ) → List (Put ℚ)} {printDsr : Bool} {d1 d2 : Disk}
    {ms : List (List (Nat × Nat × ℚ))} {out1 out2 o1 o2 : Disk} :
    writeBoth dbl asInt cvd 0 idx sched printDsr d1 d2 ms out1 out2 = .ok (o1, o2) ↔
      outputNonMono dbl asInt cvd 0 idx sched printDsr d1 (ms.map fun m => (m.map fun q => q.1, m.map fun q => q.2.2)) out1 = .ok o1 ∧
      outputNonMono dbl asInt cvd 0 idx sched printDsr d2 (ms.map fun m => (m.map fun q => q.2.1, m.map fun q => q.2.2)) out2 = .ok o2 := by
  unfold writeBoth
  constructor
  · intro h
    obtain ⟨a, ha, h⟩ := of_bind h
    obtain ⟨b, hb, h⟩ := of_bind h
    cases h
    exact ⟨ha, hb⟩
  · rintro ⟨h1, h2⟩
    rw [h1, Res.ok_bind, h2, Res.ok_bind]

/-- The program after the options, once the coordinates are there. -/
theorem run_eq {asserts dir : Bool} {bits : ℚ → BitVec 32} {f : ℚ → ℚ} {cvd : Conv ℚ ℚ} {srt : List XRec → List XRec} {fuel : Nat}
    {idx : List Nat → List Nat} {sched : List (Put ℚ) → List (Put ℚ)} {dflt : Crd ℚ} {P : Nat} {o : Opts} {w : World} {d1 d2 : Disk}
    {c1s c2s : List (List (Crd ℚ))} (hw1 : w o.name1 = some d1) (hw2 : w o.name2 = some d2)
    (h1 : getCoords rnd srt fuel idx dflt o.ixline P d1 = .ok c1s) (h2 : getCoords rnd srt fuel idx dflt o.ixline P d2 = .ok c2s)
    (hn : asserts = true → o.name1 ≠ [] ∧ o.name2 ≠ [] ∧ o.name3 ≠ [] ∧ o.name4 ≠ []) :
    run asserts dir bits f cvd srt fuel idx sched dflt P o w = search f o c1s c2s >>= fun ms => restart asserts dir bits o.verbose ms w >>=
      fun w => output cvd idx sched o.printDsr o.name3 o.name1 (ms.map fun m => (m.map fun q => q.1, m.map fun q => q.2.2)) w >>=
      fun w => output cvd idx sched o.printDsr o.name4 o.name2 (ms.map fun m => (m.map fun q => q.2.1, m.map fun q => q.2.2)) w := by
  unfold run
  rw [if_neg (by rintro ⟨h, h'⟩; have := hn h; tauto)]
  unfold coords
  rw [hw1, hw2]
  dsimp only
  rw [h1, Res.ok_bind, h2, Res.ok_bind]

/-- What a run that ends has done. -/
theorem run_ok {asserts dir : Bool} {bits : ℚ → BitVec 32} {f : ℚ → ℚ} {cvd : Conv ℚ ℚ} {srt : List XRec → List XRec} {fuel : Nat}
    {idx : List Nat → List Nat} {sched : List (Put ℚ) → List (Put ℚ)} {dflt : Crd ℚ} {P : Nat} {o : Opts} {w w' : World}
    (h : run asserts dir bits f cvd srt fuel idx sched dflt P o w = .ok w') :
    (asserts = true → o.name1 ≠ [] ∧ o.name2 ≠ [] ∧ o.name3 ≠ [] ∧ o.name4 ≠ []) ∧
    ∃ d1 d2 c1s c2s ms w1 w2, w o.name1 = some d1 ∧ w o.name2 = some d2 ∧ getCoords rnd srt fuel idx dflt o.ixline P d1 = .ok c1s ∧
      getCoords rnd srt fuel idx dflt o.ixline P d2 = .ok c2s ∧ search f o c1s c2s = .ok ms ∧
      restart asserts dir bits o.verbose ms w = .ok w1 ∧
      output cvd idx sched o.printDsr o.name3 o.name1 (ms.map fun m => (m.map fun q => q.1, m.map fun q => q.2.2)) w1 = .ok w2 ∧
      output cvd idx sched o.printDsr o.name4 o.name2 (ms.map fun m => (m.map fun q => q.2.1, m.map fun q => q.2.2)) w2 = .ok w' := by
  unfold run at h
  split at h
  · cases h
  · rename_i hn
    obtain ⟨c1s, h1, h⟩ := of_bind h
    obtain ⟨c2s, h2, h⟩ := of_bind h
    obtain ⟨ms, h3, h⟩ := of_bind h
    obtain ⟨w1, h4, h⟩ := of_bind h
    obtain ⟨w2, h5, h⟩ := of_bind h
    refine ⟨fun ha => ?_, ?_⟩
    · refine ⟨fun e => hn ⟨ha, ?_⟩, fun e => hn ⟨ha, ?_⟩, fun e => hn ⟨ha, ?_⟩, fun e => hn ⟨ha, ?_⟩⟩ <;> tauto
    · unfold coords at h1 h2
      cases e1 : w o.name1 with
      | none => rw [e1] at h1; cases h1
      | some d1 =>
        cases e2 : w o.name2 with
        | none => rw [e2] at h2; cases h2
        | some d2 =>
          rw [e1] at h1
          rw [e2] at h2
          exact ⟨d1, d2, c1s, c2s, ms, w1, w2, rfl, rfl, h1, h2, h3, h4, h5, h⟩

theorem restart_same {asserts dir : Bool} {bits : ℚ → BitVec 32} {verbose : Bool} {ms : List (List (Nat × Nat × ℚ))} {w w1 : World}
    (h : restart asserts dir bits verbose ms w = .ok w1) {n : Name} (hn : verbose = true → ∀ r, r < ms.length → n ≠ restartName r) :
    w1 n = w n := by
  unfold restart at h
  cases verbose with
  | false =>
    simp only [Bool.false_eq_true, if_false, Res.ok.injEq] at h
    rw [h]
  | true =>
    cases dir with
    | false => cases h
    | true =>
      simp only [if_true, Res.ok.injEq] at h
      rw [← h]
      exact restarts_other _ _ _ _ _ _ fun i hi => by rw [Nat.zero_add]; exact hn rfl i hi

theorem restart_file {asserts dir : Bool} {bits : ℚ → BitVec 32} {ms : List (List (Nat × Nat × ℚ))} {w w1 : World}
    (h : restart asserts dir bits true ms w = .ok w1) {r : Nat} {m : List (Nat × Nat × ℚ)} (hr : ms[r]? = some m) :
    w1 (restartName r) = some (fileOf (if asserts then restartBytes bits m else [])) := by
  unfold restart at h
  cases dir with
  | false => cases h
  | true =>
    simp only [if_true, Res.ok.injEq] at h
    rw [← h]
    have := restarts_at asserts bits ms 0 w r m hr
    rwa [Nat.zero_add] at this

theorem files_core {f : ℚ → ℚ} {E : ℤ} {cvd : Conv ℚ ℚ} {srt : List XRec → List XRec} {idx : List Nat → List Nat}
    {sched : List (Put ℚ) → List (Put ℚ)} {P : Nat} {d1 d2 : Disk} {i1 i2 : Info} {o : Opts}
    (R : Ready f E cvd srt idx sched P o.dsrmax d1 d2 i1 i2) (asserts dir : Bool) (bits : ℚ → BitVec 32) (dflt : Crd ℚ) (w : World)
    (hw1 : w o.name1 = some d1) (hw2 : w o.name2 = some d2) (h32 : o.name3 ≠ o.name2)
    (hv : o.verbose = true → ∀ r, r < P → o.name1 ≠ restartName r ∧ o.name2 ≠ restartName r) :
    ∃ n c1s c2s, Held rnd dflt o.ixline P d1 i1 c1s ∧ Held rnd dflt o.ixline P d2 i2 c2s ∧
      ∀ fuel w', n ≤ fuel → run asserts dir bits f cvd srt fuel idx sched dflt P o w = .ok w' →
        ∃ ms o1 o2 w1, restart asserts dir bits o.verbose ms w = .ok w1 ∧ ms.length = P ∧
          Chosen E o.dsrmax o.ixline d1 d2 i1 i2 c1s c2s ms.flatten ∧ Written o.printDsr d1 d2 i1 i2 ms.flatten o1 o2 ∧
          w' = Function.update (Function.update w1 o.name3 (some o1)) o.name4 (some o2) := by
  obtain ⟨n, c1s, c2s, H1, H2, he, hm⟩ := ready_core R dflt
  refine ⟨n, c1s, c2s, H1, H2, fun fuel w' hf hr => ?_⟩
  obtain ⟨-, d1', d2', c1s', c2s', ms, w1, w2, a1, a2, a3, a4, a5, a6, a7, a8⟩ := run_ok hr
  rw [hw1, Option.some.injEq] at a1
  rw [hw2, Option.some.injEq] at a2
  subst a1 a2
  rw [(he fuel hf).1, Res.ok.injEq] at a3
  rw [(he fuel hf).2, Res.ok.injEq] at a4
  subst a3 a4
  obtain ⟨b1, b2, -, b3⟩ := hm ms a5
  obtain ⟨s1, o1, c1, c2, c3, c4, rfl⟩ := output_ok.1 a7
  obtain ⟨s2, o2, e1, e2, e3, e4, rfl⟩ := output_ok.1 a8
  rw [restart_same a6 fun h r hr => (hv h r (by omega)).1, hw1, Option.some.injEq] at c1
  rw [Function.update_of_ne h32.symm, restart_same a6 fun h r hr => (hv h r (by omega)).2, hw2, Option.some.injEq] at e1
  subst c1 e1
  obtain ⟨p1, p2, q1, q2⟩ := b3 o.printDsr _ _
  rw [writeBoth_ok.2 ⟨c4, e4⟩] at q1
  cases q1
  exact ⟨ms, o1, o2, w1, a6, b1, b2, q2, rfl⟩

/-- **C107** (the whole program, partial). On any number of processes, in either build, with any options that name two surveys and
two outputs: whenever the program ends, the outputs hold the pairs found (`Chosen`, which is C97: within the limit and nearest up to
the errors of single precision), trace `j` of each being the trace of pair `j` of its survey byte for byte but for the criterion
(`Written`); and no other file has changed but for the records of `-v`. Missing: IBM files, surveys larger than the numbers that
the code can count (C88), the exact criterion (refuted in C97). -/
theorem C107_files_partial (f : ℚ → ℚ) (E : ℤ) (cvd : Conv ℚ ℚ) (srt : List XRec → List XRec) (idx : List Nat → List Nat)
    (sched : List (Put ℚ) → List (Put ℚ)) (P : Nat) (d1 d2 : Disk) (i1 i2 : Info) (o : Opts)
    (R : Ready f E cvd srt idx sched P o.dsrmax d1 d2 i1 i2) (asserts dir : Bool) (bits : ℚ → BitVec 32) (dflt : Crd ℚ)
    (argv : List Name) (hargv : parse argv = .ok o) (w : World)
    (hw1 : w o.name1 = some d1) (hw2 : w o.name2 = some d2) (h32 : o.name3 ≠ o.name2) (h34 : o.name3 ≠ o.name4)
    (hv : o.verbose = true → ∀ r, r < P → o.name1 ≠ restartName r ∧ o.name2 ≠ restartName r) :
    ∃ n c1s c2s, Held rnd dflt o.ixline P d1 i1 c1s ∧ Held rnd dflt o.ixline P d2 i2 c2s ∧
      ∀ fuel w', n ≤ fuel → main asserts dir bits f cvd srt fuel idx sched dflt P argv w = .ok w' →
        (∃ pairs o1 o2, w' o.name3 = some o1 ∧ w' o.name4 = some o2 ∧ Chosen E o.dsrmax o.ixline d1 d2 i1 i2 c1s c2s pairs ∧
          Written o.printDsr d1 d2 i1 i2 pairs o1 o2) ∧
        ∀ x, x ≠ o.name3 → x ≠ o.name4 → (o.verbose = true → ∀ r, r < P → x ≠ restartName r) → w' x = w x := by
  obtain ⟨n, c1s, c2s, H1, H2, h⟩ := files_core R asserts dir bits dflt w hw1 hw2 h32 hv
  refine ⟨n, c1s, c2s, H1, H2, fun fuel w' hf hr => ?_⟩
  unfold main at hr
  rw [hargv, Res.ok_bind] at hr
  obtain ⟨ms, o1, o2, w1, k1, k2, k3, k4, rfl⟩ := h fuel w' hf hr
  refine ⟨⟨ms.flatten, o1, o2, ?_, ?_, k3, k4⟩, fun x x3 x4 xr => ?_⟩
  · rw [Function.update_of_ne h34, Function.update_self]
  · rw [Function.update_self]
  · rw [Function.update_of_ne x4, Function.update_of_ne x3]
    exact restart_same k1 fun hv r hr => xr hv r (by omega)

/-- **C107** (it ends, partial). If every source of one survey is near enough to every source of the other, both have traces enough for
the processes, and `-v` finds its directory, the program ends. Missing: other surveys, for which C48 and C88 are refuted. -/
theorem C107_ends_partial (f : ℚ → ℚ) (E : ℤ) (cvd : Conv ℚ ℚ) (srt : List XRec → List XRec) (idx : List Nat → List Nat)
    (sched : List (Put ℚ) → List (Put ℚ)) (P : Nat) (d1 d2 : Disk) (i1 i2 : Info) (o : Opts)
    (R : Ready f E cvd srt idx sched P o.dsrmax d1 d2 i1 i2) (asserts dir : Bool) (bits : ℚ → BitVec 32) (dflt : Crd ℚ)
    (argv : List Name) (hargv : parse argv = .ok o) (w : World)
    (hw1 : w o.name1 = some d1) (hw2 : w o.name2 = some d2) (hn : o.name1 ≠ [] ∧ o.name2 ≠ [] ∧ o.name3 ≠ [] ∧ o.name4 ≠ [])
    (h31 : o.name3 ≠ o.name1) (h32 : o.name3 ≠ o.name2) (h42 : o.name4 ≠ o.name2)
    (hv : o.verbose = true → dir = true ∧ ∀ r, r < P → o.name1 ≠ restartName r ∧ o.name2 ≠ restartName r)
    (hnear : ∀ a b, a < i1.nt → b < i2.nt → apart d1 d2 i1 i2 a b + 2 * 2 ^ E ≤ o.dsrmax) (hp1 : P ≤ i1.nt) (hp2 : 2 * P ≤ i2.nt) :
    ∃ n, ∀ fuel, n ≤ fuel → ∃ w', main asserts dir bits f cvd srt fuel idx sched dflt P argv w = .ok w' := by
  obtain ⟨n, c1s, c2s, H1, H2, he, hm⟩ := ready_core R dflt
  obtain ⟨n', hend⟩ := C88_ends_partial (geoS f o.ixline o.dsrmax) (fun _ => rfl) (fun _ => rfl)
    (fun x y hxy => rnd_mono (by linarith)) (fun x y hxy => rnd_mono (by linarith)) rnd (fun x y hxy => rnd_mono hxy) cvd srt R.sorts
    idx R.index sched R.order dflt o.ixline o.printDsr P R.procs d1 d2 i1 i2 R.src1 R.src2 R.nt1 R.nt2
    (fun k _ => hi_below R.lim0 R.lim1 dflt d1 _ k)
    (fun k _ => hi_below R.lim0 R.lim1 dflt d2 _ k) (fun _ t u hc => by
      rw [R.conv, abs_of_nonneg (crit_nonneg R.root t u)]
      exact le_trans hc R.lim1) R.size
    (fun a b ha hb => by
      obtain ⟨k1, k2⟩ := apart_le R.exp R.within1 R.within2 dflt o.ixline ha hb (hnear a b ha hb)
      have q1 := (crd_singles dflt o.ixline d1 i1.ns a).1
      have q2 := (crd_singles dflt o.ixline d2 i2.ns b).1
      exact ⟨rnd_le q2 k1, rnd_ge q2 (show (crdOf rnd dflt o.ixline d2 i2.ns b).xs ≤ (crdOf rnd dflt o.ixline d1 i1.ns a).xs + o.dsrmax by linarith),
        rnd_le q1 k2, rnd_ge q1 (show (crdOf rnd dflt o.ixline d1 i1.ns a).xs ≤ (crdOf rnd dflt o.ixline d2 i2.ns b).xs + o.dsrmax by linarith)⟩)
    hp1 hp2 d1 d2
  refine ⟨max n n', fun fuel hf => ?_⟩
  obtain ⟨⟨e1, e2⟩, hbin⟩ := And.intro (he fuel (le_trans (le_max_left _ _) hf)) (hend fuel (le_trans (le_max_right _ _) hf))
  obtain ⟨ob, hbin⟩ := hbin
  obtain ⟨ms, hms⟩ : ∃ ms, search f o c1s c2s = .ok ms := by
    unfold binning at hbin
    rw [e1, Res.ok_bind, e2, Res.ok_bind] at hbin
    unfold fourdbin at hbin
    obtain ⟨ms, hms, -⟩ := of_bind hbin
    exact ⟨ms, hms⟩
  obtain ⟨b1, -, -, b3⟩ := hm ms hms
  obtain ⟨w1, hw⟩ : ∃ w1, restart asserts dir bits o.verbose ms w = .ok w1 := by
    unfold restart
    cases e : o.verbose with
    | false => exact ⟨_, rfl⟩
    | true => rw [(hv e).1]; exact ⟨_, rfl⟩
  have s1 : w1 o.name1 = some d1 := by rw [restart_same hw fun h r hr => ((hv h).2 r (by omega)).1, hw1]
  have s2 : w1 o.name2 = some d2 := by rw [restart_same hw fun h r hr => ((hv h).2 r (by omega)).2, hw2]
  obtain ⟨o1, o2', q1, -⟩ := b3 o.printDsr ((w1 o.name3).getD ⟨0, fun _ => 0#8⟩) d2
  obtain ⟨o1', o2, q2, -⟩ := b3 o.printDsr d1 ((Function.update w1 o.name3 (some o1) o.name4).getD ⟨0, fun _ => 0#8⟩)
  refine ⟨Function.update (Function.update w1 o.name3 (some o1)) o.name4 (some o2), ?_⟩
  unfold main
  rw [hargv, Res.ok_bind, run_eq hw1 hw2 e1 e2 fun _ => hn, hms, Res.ok_bind, hw, Res.ok_bind,
    output_ok.2 ⟨d1, o1, s1, hn.2.2.1, h31, (writeBoth_ok.1 q1).1, rfl⟩, Res.ok_bind,
    output_ok.2 ⟨d2, o2, by rw [Function.update_of_ne h32.symm, s2], hn.2.2.2, h42, (writeBoth_ok.1 q2).2, rfl⟩]

/-- **C107**. Without one of the inputs or one of the names the program does not succeed, and the same name for an input and its
output is no use either; with the first input missing it stops before anything is written. -/
theorem C107_missing (asserts dir : Bool) (bits : ℚ → BitVec 32) (f : ℚ → ℚ) (cvd : Conv ℚ ℚ) (srt : List XRec → List XRec) (fuel : Nat)
    (idx : List Nat → List Nat) (sched : List (Put ℚ) → List (Put ℚ)) (dflt : Crd ℚ) (P : Nat) (argv : List Name) (o : Opts)
    (hargv : parse argv = .ok o) (w : World) :
    ((w o.name1 = none ∨ w o.name2 = none ∨ o.name3 = [] ∨ o.name4 = [] ∨ o.name3 = o.name1 ∨ o.name4 = o.name2) →
      ∀ w', main asserts dir bits f cvd srt fuel idx sched dflt P argv w ≠ .ok w') ∧
    (w o.name1 = none → main asserts dir bits f cvd srt fuel idx sched dflt P argv w = .abort) := by
  constructor
  · intro h w' hr
    unfold main at hr
    rw [hargv, Res.ok_bind] at hr
    obtain ⟨-, d1, d2, c1s, c2s, ms, w1, w2, a1, a2, a3, a4, a5, a6, a7, a8⟩ := run_ok hr
    obtain ⟨-, o1, c1, c2, c3, c4, rfl⟩ := output_ok.1 a7
    obtain ⟨-, o2, e1, e2, e3, e4, rfl⟩ := output_ok.1 a8
    rcases h with h | h | h | h | h | h
    · rw [h] at a1; cases a1
    · rw [h] at a2; cases a2
    · exact c2 h
    · exact e2 h
    · exact c3 h
    · exact e3 h
  · intro h
    unfold main
    rw [hargv, Res.ok_bind]
    unfold run
    split
    · rfl
    · unfold coords
      rw [h]
      rfl

/-- **C107** fails for an output that is its input: nothing in the program sees it, and the file is opened twice, which is undefined.
Any run that ends, called with the first survey as the first output instead. -/
theorem C107_input_refuted (asserts dir : Bool) (bits : ℚ → BitVec 32) (f : ℚ → ℚ) (cvd : Conv ℚ ℚ) (srt : List XRec → List XRec)
    (fuel : Nat) (idx : List Nat → List Nat) (sched : List (Put ℚ) → List (Put ℚ)) (dflt : Crd ℚ) (P : Nat) (o : Opts)
    (hv : o.verbose = false) (hn : o.name1 ≠ []) (w w' : World)
    (h : run asserts dir bits f cvd srt fuel idx sched dflt P o w = .ok w') :
    run asserts dir bits f cvd srt fuel idx sched dflt P { o with name3 := o.name1 } w = .ub := by
  obtain ⟨h0, d1, d2, c1s, c2s, ms, w1, w2, a1, a2, a3, a4, a5, a6, a7, a8⟩ := run_ok h
  rw [run_eq (o := { o with name3 := o.name1 }) a1 a2 a3 a4 fun ha => ⟨hn, (h0 ha).2.1, hn, (h0 ha).2.2.2⟩]
  rw [show search f { o with name3 := o.name1 } c1s c2s = .ok ms from a5, Res.ok_bind]
  dsimp only
  rw [a6, Res.ok_bind]
  have hs : w1 o.name1 = some d1 := by
    rw [restart_same a6 fun h => (by rw [hv] at h; cases h), a1]
  unfold output
  rw [hs]
  dsimp only
  rw [if_neg hn, if_pos (by rfl)]
  rfl

/-- **C107** fails if both outputs have one name: the first is lost, only the traces of the second survey are left, and no other file
has changed. -/
theorem C107_twice_refuted (f : ℚ → ℚ) (E : ℤ) (cvd : Conv ℚ ℚ) (srt : List XRec → List XRec) (idx : List Nat → List Nat)
    (sched : List (Put ℚ) → List (Put ℚ)) (P : Nat) (d1 d2 : Disk) (i1 i2 : Info) (o : Opts)
    (R : Ready f E cvd srt idx sched P o.dsrmax d1 d2 i1 i2) (asserts dir : Bool) (bits : ℚ → BitVec 32) (dflt : Crd ℚ)
    (argv : List Name) (hargv : parse argv = .ok o) (w : World)
    (hw1 : w o.name1 = some d1) (hw2 : w o.name2 = some d2) (h34 : o.name3 = o.name4) (hv : o.verbose = false) :
    ∃ n, ∀ fuel w', n ≤ fuel → main asserts dir bits f cvd srt fuel idx sched dflt P argv w = .ok w' →
      (∀ x, x ≠ o.name4 → w' x = w x) ∧
      ∃ pairs : List (Nat × Nat × ℚ), ∃ o2, w' o.name4 = some o2 ∧ openRead o2 = .ok ⟨i2.ns, pairs.length, i2.inc, 5#16, shown title⟩ ∧
        ∀ j, j < pairs.length → ∃ b v, b < i2.nt ∧ Copied dbl o.printDsr i2.ns d2 b o2 j v := by
  by_cases h32 : o.name3 = o.name2
  · refine ⟨0, fun fuel w' _ hr => absurd hr ((C107_missing asserts dir bits f cvd srt fuel idx sched dflt P argv o hargv w).1 ?_ w')⟩
    right; right; right; right; right
    rw [← h34, h32]
  · obtain ⟨n, c1s, c2s, H1, H2, h⟩ := files_core R asserts dir bits dflt w hw1 hw2 h32 (by rw [hv]; simp)
    refine ⟨n, fun fuel w' hf hr => ?_⟩
    unfold main at hr
    rw [hargv, Res.ok_bind] at hr
    obtain ⟨ms, o1, o2, w1, k1, k2, k3, k4, rfl⟩ := h fuel w' hf hr
    refine ⟨fun x hx => ?_, ms.flatten, o2, by rw [Function.update_self], k4.opens2, fun j hj => ?_⟩
    · rw [Function.update_of_ne hx, Function.update_of_ne (by rw [h34]; exact hx)]
      exact restart_same k1 (by rw [hv]; simp)
    · rcases hq : ms.flatten[j] with ⟨a, b, v⟩
      have hget := List.getElem?_eq_getElem hj
      rw [hq] at hget
      exact ⟨b, v, (k3.near a b v (List.mem_of_getElem? hget)).2.1, (k4.traces j a b v hget).2⟩

/-- **C107** fails with `-v` where there is no directory `tmp`: the result of `fopen` is not looked at. Any run that ends, with `-v`. -/
theorem C107_tmp_refuted (asserts dir : Bool) (bits : ℚ → BitVec 32) (f : ℚ → ℚ) (cvd : Conv ℚ ℚ) (srt : List XRec → List XRec)
    (fuel : Nat) (idx : List Nat → List Nat) (sched : List (Put ℚ) → List (Put ℚ)) (dflt : Crd ℚ) (P : Nat) (o : Opts)
    (w w' : World) (h : run asserts dir bits f cvd srt fuel idx sched dflt P o w = .ok w') :
    run asserts false bits f cvd srt fuel idx sched dflt P { o with verbose := true } w = .ub := by
  obtain ⟨h0, d1, d2, c1s, c2s, ms, w1, w2, a1, a2, a3, a4, a5, a6, a7, a8⟩ := run_ok h
  rw [run_eq (o := { o with verbose := true }) a1 a2 a3 a4 h0]
  rw [show search f { o with verbose := true } c1s c2s = .ok ms from a5, Res.ok_bind]
  rfl

/-- **C107** (the record, partial). With `-v`, in the build with assertions, every process leaves the matches it found: their number,
the traces of the first survey, those of the second, the criteria; those of all processes in their order are the pairs of the
outputs. Missing: the default build, for which it is refuted. -/
theorem C107_record_partial (f : ℚ → ℚ) (E : ℤ) (cvd : Conv ℚ ℚ) (srt : List XRec → List XRec) (idx : List Nat → List Nat)
    (sched : List (Put ℚ) → List (Put ℚ)) (P : Nat) (d1 d2 : Disk) (i1 i2 : Info) (o : Opts)
    (R : Ready f E cvd srt idx sched P o.dsrmax d1 d2 i1 i2) (dir : Bool) (bits : ℚ → BitVec 32) (dflt : Crd ℚ)
    (argv : List Name) (hargv : parse argv = .ok o) (w : World)
    (hw1 : w o.name1 = some d1) (hw2 : w o.name2 = some d2) (h32 : o.name3 ≠ o.name2) (h34 : o.name3 ≠ o.name4)
    (hv : o.verbose = true) (hr : ∀ r, r < P → restartName r ∉ [o.name1, o.name2, o.name3, o.name4]) :
    ∃ n, ∀ fuel w', n ≤ fuel → main true dir bits f cvd srt fuel idx sched dflt P argv w = .ok w' →
      ∃ (ms : List (List (Nat × Nat × ℚ))) (o1 o2 : Disk), ms.length = P ∧ w' o.name3 = some o1 ∧ w' o.name4 = some o2 ∧ Written o.printDsr d1 d2 i1 i2 ms.flatten o1 o2 ∧
        ∀ r m, ms[r]? = some m → ∃ d, w' (restartName r) = some d ∧ Recorded bits m d := by
  have hr' : ∀ r, r < P → restartName r ≠ o.name1 ∧ restartName r ≠ o.name2 ∧ restartName r ≠ o.name3 ∧ restartName r ≠ o.name4 := by
    intro r hrP
    have := hr r hrP
    simp only [List.mem_cons, List.not_mem_nil, or_false] at this
    tauto
  obtain ⟨n, c1s, c2s, H1, H2, h⟩ := files_core R true dir bits dflt w hw1 hw2 h32
    fun _ r hrP => ⟨fun e => (hr' r hrP).1 e.symm, fun e => (hr' r hrP).2.1 e.symm⟩
  refine ⟨n, fun fuel w' hf hrun => ?_⟩
  unfold main at hrun
  rw [hargv, Res.ok_bind] at hrun
  obtain ⟨ms, o1, o2, w1, k1, k2, k3, k4, rfl⟩ := h fuel w' hf hrun
  refine ⟨ms, o1, o2, k2, by rw [Function.update_of_ne h34, Function.update_self], by rw [Function.update_self], k4, fun r m hm => ?_⟩
  have hrP : r < P := by rw [← k2]; exact (List.getElem?_eq_some_iff.1 hm).1
  rw [hv] at k1
  refine ⟨_, by
    rw [Function.update_of_ne (hr' r hrP).2.2.2, Function.update_of_ne (hr' r hrP).2.2.1, restart_file k1 hm, if_pos rfl], ?_⟩
  obtain ⟨q1, -⟩ := openRead_of R.src1.opens R.src1.size R.src1.ns0 R.src1.ns1
  obtain ⟨q2, -⟩ := openRead_of R.src2.opens R.src2.size R.src2.ns0 R.src2.ns1
  have t1 := nt_lt (Nat.lt_of_le_of_lt q1 R.src1.size)
  have t2 := nt_lt (Nat.lt_of_le_of_lt q2 R.src2.size)
  have hmem : ∀ q ∈ m, q ∈ ms.flatten := fun q hq => List.mem_flatten.2 ⟨m, List.mem_of_getElem? hm, hq⟩
  have hsub : m.length ≤ ms.flatten.length := (List.sublist_flatten_of_mem (List.mem_of_getElem? hm)).length_le
  have hlen : ms.flatten.length ≤ i1.nt := by
    have hs : (ms.flatten.map Prod.fst).Subperm (List.range i1.nt) := by
      refine List.subperm_of_subset k3.once fun a ha => ?_
      obtain ⟨⟨a, b, v⟩, hq, rfl⟩ := List.mem_map.1 ha
      exact List.mem_range.2 (k3.near a b v hq).1
    have := hs.length_le
    rwa [List.length_map, List.length_range] at this
  refine recorded bits m (by omega) fun a b v hq => ?_
  have := k3.near a b v (hmem _ hq)
  omega

/-- **C107** fails for the record in the default build: the calls that write are inside the assertions, so every file of `-v` is empty,
whatever has been found. -/
theorem C107_record_refuted (f : ℚ → ℚ) (E : ℤ) (cvd : Conv ℚ ℚ) (srt : List XRec → List XRec) (idx : List Nat → List Nat)
    (sched : List (Put ℚ) → List (Put ℚ)) (P : Nat) (d1 d2 : Disk) (i1 i2 : Info) (o : Opts)
    (R : Ready f E cvd srt idx sched P o.dsrmax d1 d2 i1 i2) (dir : Bool) (bits : ℚ → BitVec 32) (dflt : Crd ℚ)
    (argv : List Name) (hargv : parse argv = .ok o) (w : World)
    (hw1 : w o.name1 = some d1) (hw2 : w o.name2 = some d2) (h32 : o.name3 ≠ o.name2)
    (hv : o.verbose = true) (hr : ∀ r, r < P → restartName r ∉ [o.name1, o.name2, o.name3, o.name4]) :
    ∃ n, ∀ fuel w', n ≤ fuel → main false dir bits f cvd srt fuel idx sched dflt P argv w = .ok w' →
      ∀ r, r < P → ∃ d, w' (restartName r) = some d ∧ d.size = 0 := by
  have hr' : ∀ r, r < P → restartName r ≠ o.name1 ∧ restartName r ≠ o.name2 ∧ restartName r ≠ o.name3 ∧ restartName r ≠ o.name4 := by
    intro r hrP
    have := hr r hrP
    simp only [List.mem_cons, List.not_mem_nil, or_false] at this
    tauto
  obtain ⟨n, c1s, c2s, H1, H2, h⟩ := files_core R false dir bits dflt w hw1 hw2 h32
    fun _ r hrP => ⟨fun e => (hr' r hrP).1 e.symm, fun e => (hr' r hrP).2.1 e.symm⟩
  refine ⟨n, fun fuel w' hf hrun r hrP => ?_⟩
  unfold main at hrun
  rw [hargv, Res.ok_bind] at hrun
  obtain ⟨ms, o1, o2, w1, k1, k2, k3, k4, rfl⟩ := h fuel w' hf hrun
  rw [hv] at k1
  have hm := List.getElem?_eq_getElem (show r < ms.length by omega)
  exact ⟨fileOf [], by
    rw [Function.update_of_ne (hr' r hrP).2.2.2, Function.update_of_ne (hr' r hrP).2.2.1, restart_file k1 hm]; rfl, rfl⟩

/-- Trace `k'` of `o` is trace `k` of `d` but for the fields of the criterion. -/
def SameTrace (ns : Nat) (d : Disk) (k : Nat) (o : Disk) (k' : Nat) : Prop :=
  ∀ x, x < 240 + 4 * ns → ¬ ((214 ≤ x ∧ x < 216) ∨ (224 ≤ x ∧ x < 228)) → recByte o ns k' x = recByte d ns k x

/-- **C107** fails if the first output is the second survey: it is read again after it has been overwritten, so the second output has
traces of the first survey. Any run with a name of its own for the first output, where as many traces are matched as the second survey
has; then with the name of the second survey instead. -/
theorem C107_over_refuted (f : ℚ → ℚ) (E : ℤ) (cvd : Conv ℚ ℚ) (srt : List XRec → List XRec) (idx : List Nat → List Nat)
    (sched : List (Put ℚ) → List (Put ℚ)) (P : Nat) (d1 d2 : Disk) (i1 i2 : Info) (o : Opts)
    (R : Ready f E cvd srt idx sched P o.dsrmax d1 d2 i1 i2) (asserts dir : Bool) (bits : ℚ → BitVec 32) (dflt : Crd ℚ) (w : World)
    (hw1 : w o.name1 = some d1) (hw2 : w o.name2 = some d2) (h12 : o.name1 ≠ o.name2) (hne : o.name2 ≠ [])
    (h32 : o.name3 ≠ o.name2) (h34 : o.name3 ≠ o.name4) (hv : o.verbose = false) :
    ∃ n, ∀ fuel w' d3 i3, n ≤ fuel → run asserts dir bits f cvd srt fuel idx sched dflt P o w = .ok w' → w' o.name3 = some d3 →
      openRead d3 = .ok i3 → i2.nt ≤ i3.nt →
      ∃ w'' o4, run asserts dir bits f cvd srt fuel idx sched dflt P { o with name3 := o.name2 } w = .ok w'' ∧
        w'' o.name4 = some o4 ∧ openRead o4 = .ok ⟨i1.ns, i3.nt, i1.inc, 5#16, shown title⟩ ∧
        ∀ j, j < i3.nt → ∃ a, a < i1.nt ∧ SameTrace i1.ns d1 a o4 j := by
  obtain ⟨n, c1s, c2s, H1, H2, he, hm⟩ := ready_core R dflt
  refine ⟨n, fun fuel w' d3 i3 hf hr hd3 ho3 hle => ?_⟩
  obtain ⟨h0, d1', d2', c1s', c2s', ms, w1, w2, a1, a2, a3, a4, a5, a6, a7, a8⟩ := run_ok hr
  rw [hw1, Option.some.injEq] at a1
  rw [hw2, Option.some.injEq] at a2
  subst a1 a2
  rw [(he fuel hf).1, Res.ok.injEq] at a3
  rw [(he fuel hf).2, Res.ok.injEq] at a4
  subst a3 a4
  have hw' : w1 = w := by
    unfold restart at a6
    rw [hv] at a6
    simp only [Bool.false_eq_true, if_false, Res.ok.injEq] at a6
    exact a6.symm
  subst hw'
  obtain ⟨b1, b2, b3, b4⟩ := hm ms a5
  obtain ⟨s1, o1, c1, c2, c3, c4, rfl⟩ := output_ok.1 a7
  obtain ⟨s2, o2, e1, e2, e3, e4, rfl⟩ := output_ok.1 a8
  rw [Function.update_of_ne h34, Function.update_self, Option.some.injEq] at hd3
  subst hd3
  rw [hw1, Option.some.injEq] at c1
  rw [Function.update_of_ne h32.symm, hw2, Option.some.injEq] at e1
  subst c1 e1
  obtain ⟨p1, p2, q1, q2⟩ := b4 o.printDsr _ _
  rw [writeBoth_ok.2 ⟨c4, e4⟩] at q1
  cases q1
  have hN := q2.opens1
  rw [ho3, Res.ok.injEq] at hN
  subst hN
  dsimp only at hle ⊢
  -- the first output over the second survey
  have hgood : ∀ g : Nat × Nat × ℚ → Nat, o.printDsr = true → Good dbl 0 ∧
      ∀ l ∈ ms.map fun m => (m.map g, m.map fun q => q.2.2), ∀ v ∈ l.2, Good dbl (cvd.toF v) := by
    intro g _
    refine ⟨good_dbl (by norm_num), fun l hl v hv => ?_⟩
    obtain ⟨m, hm, rfl⟩ := List.mem_map.1 hl
    obtain ⟨q, hq, rfl⟩ := List.mem_map.1 hv
    rw [R.conv]
    exact good_dbl (b3.2 q (List.mem_flatten.2 ⟨m, hm, hq⟩))
  have hne' : ms ≠ [] := by
    rintro rfl
    have := R.procs
    rw [List.length_nil] at b1
    omega
  obtain ⟨hds, -⟩ := openRead_of R.src1.opens R.src1.size R.src1.ns0 R.src1.ns1
  have hsz : 3600 + ms.flatten.length * (240 + 4 * i1.ns) < 2 ^ 63 :=
    Nat.lt_of_le_of_lt (Nat.add_le_add_left (Nat.mul_le_mul_right _ b3.1) _) (Nat.lt_of_le_of_lt hds R.src1.size)
  have hl : ∀ g : Nat × Nat × ℚ → Nat, ∀ l ∈ ms.map fun m => (m.map g, m.map fun q => q.2.2), l.1.length = l.2.length := by
    intro g l hl
    obtain ⟨m, -, rfl⟩ := List.mem_map.1 hl
    simp
  obtain ⟨u1, x1, x2, x3, x4⟩ := C87_output_partial dbl asInt (fun _ => rfl) cvd 0 idx R.index sched R.order o.printDsr d1 i1 R.src1.opens
    R.src1.size R.src1.ns0 R.src1.ns1 R.src1.format R.src1.inc (ms.map fun m => (m.map fun q => q.1, m.map fun q => q.2.2)) (by simpa using hne')
    (hl _) (by
      intro l hl k hk
      obtain ⟨m, hm, rfl⟩ := List.mem_map.1 hl
      obtain ⟨⟨a, b, v⟩, hq, rfl⟩ := List.mem_map.1 hk
      exact (b2.near a b v (List.mem_flatten.2 ⟨m, hm, hq⟩)).1) (hgood _) ms.flatten.length (by rw [len_flat]) hsz d2
  obtain ⟨u2, y1, -, y3, y4⟩ := C87_output_partial dbl asInt (fun _ => rfl) cvd 0 idx R.index sched R.order o.printDsr u1 _ x3
    (by rw [x2]; exact hsz) R.src1.ns0 R.src1.ns1 (show 5#16 ≠ 1#16 by decide) R.src1.inc
    (ms.map fun m => (m.map fun q => q.2.1, m.map fun q => q.2.2)) (by simpa using hne')
    (hl _) (by
      intro l hl k hk
      obtain ⟨m, hm, rfl⟩ := List.mem_map.1 hl
      obtain ⟨⟨a, b, v⟩, hq, rfl⟩ := List.mem_map.1 hk
      exact Nat.lt_of_lt_of_le (b2.near a b v (List.mem_flatten.2 ⟨m, hm, hq⟩)).2.1 hle) (hgood _) ms.flatten.length (by rw [len_flat]) hsz
    ((Function.update w1 o.name2 (some u1) o.name4).getD ⟨0, fun _ => 0#8⟩)
  refine ⟨Function.update (Function.update w1 o.name2 (some u1)) o.name4 (some u2), u2, ?_, by rw [Function.update_self], y3, fun j hj => ?_⟩
  · rw [run_eq (o := { o with name3 := o.name2 }) hw1 hw2 (he fuel hf).1 (he fuel hf).2 fun ha => ⟨(h0 ha).1, hne, hne, (h0 ha).2.2.2⟩]
    rw [show search f { o with name3 := o.name2 } c1s c2s = .ok ms from a5, Res.ok_bind]
    dsimp only
    rw [a6, Res.ok_bind]
    rw [output_ok.2 ⟨d1, u1, hw1, hne, h12.symm, by rw [hw2]; exact x1, rfl⟩, Res.ok_bind,
      output_ok.2 ⟨u1, u2, by rw [Function.update_self], e2, e3, y1, rfl⟩]
  · have hget := List.getElem?_eq_getElem hj
    rcases hq : ms.flatten[j] with ⟨a, b, v⟩
    rw [hq] at hget
    have hb := Nat.lt_of_lt_of_le (b2.near a b v (List.mem_of_getElem? hget)).2.1 hle
    have hget' := List.getElem?_eq_getElem hb
    rcases hq' : ms.flatten[b] with ⟨a', b', v'⟩
    rw [hq'] at hget'
    have z1 := y4 j b v (by rw [zip_flat ms fun q => q.2.1, List.getElem?_map, hget]; rfl)
    have z2 := x4 b a' v' (by rw [zip_flat ms fun q => q.1, List.getElem?_map, hget']; rfl)
    refine ⟨a', (b2.near a' b' v' (List.mem_of_getElem? hget')).1, fun x hx hn => ?_⟩
    rw [z1.bytes x hx (by tauto), z2.bytes x hx (by tauto)]

/-! ## A case

Two surveys of three and two traces, `fourdbin -a old -b new -c c -d d -t 10 -x`, on one process. -/

/-- The second survey, of two traces. -/
def exTwo : Disk := north 2 fun k => k == 0

/-- The files on disk. -/
def exWorld : World := fun n => if n = ['o'] then some exOld else if n = ['n'] then some exTwo else none

theorem ex_w1 : exWorld ['o'] = some exOld := if_pos rfl

theorem ex_w2 : exWorld ['n'] = some exTwo := by
  unfold exWorld
  rw [if_neg (by decide), if_pos rfl]

/-- The arguments. -/
def exArgs (v : Bool) (c : Name) : List Arg :=
  [.a ['o'], .b ['n'], .c c, .d ['d'], .t ['1', '0'], .x] ++ (if v then [.v] else [])

theorem limit_ten : limit ['1', '0'] = .ok 10 := by
  have h1 := C107_number [] (by simp) none 10 none none
  have e1 : [] ++ (signText none ++ (decimal 10 ++ (fracText none ++ expText none))) = ['1', '0'] := by decide +kernel
  rw [e1] at h1
  simp only [fracVal, expVal, reduceCtorEq, if_false] at h1
  norm_num at h1
  obtain ⟨v, k1, -, -, k2⟩ := C107_limit _ _ h1 (Or.inr (by rw [abs_of_pos (by norm_num)]; norm_num))
  rw [k1, k2 (by exact_mod_cast isSingle_int (n := 10) (by norm_num))]

/-- The options in this case. -/
def exOpts (v : Bool) (c : Name) : Opts := ⟨['o'], ['n'], c, ['d'], 10, v, true, true⟩

theorem ex_parse (v : Bool) (c : Name) : parse ((exArgs v c).flatMap fun a => a.given.words) = .ok (exOpts v c) := by
  rw [C107_options (exArgs v c) (fun _ => 10) (by
    intro s hs
    have : s = ['1', '0'] := by cases v <;> simpa [exArgs] using hs
    rw [this, limit_ten])]
  cases v <;> rfl

theorem ex_ready {f : ℚ → ℚ} (hf : GoodRoot f) : ∃ t1 t2, Ready f (-1) exConvR (keySort xLess) insIndex id 1 10 exOld exTwo
    ⟨1, 3, exInc false, 5#16, t1⟩ ⟨1, 2, exInc false, 5#16, t2⟩ := by
  obtain ⟨t1, s1⟩ := north_source 3 (fun _ => false) (by decide)
  obtain ⟨t2, s2⟩ := north_source 2 (fun k => k == 0) (by decide)
  exact ⟨t1, t2, hf, by norm_num, by norm_num, by norm_num, fun _ => rfl, x_sorts, insIndex_sorts, fun l => List.Perm.refl l, Nat.one_pos,
    s1, s2, show 3 ≤ 6100805 * 1 by decide, show 2 ≤ 6100805 * 1 by decide, show 3600 + 3 * (240 + 4 * 1) < 2 ^ 63 by decide,
    north_within 3 _ _ rfl, north_within 2 _ _ rfl⟩

theorem restart_ne (r : Nat) {x : Name} (h : x.length < 11) : restartName r ≠ x := by
  rintro rfl
  have e : "tmp/restart".toList.length = 11 := by decide +kernel
  unfold restartName at h
  rw [List.length_append, e] at h
  omega

theorem ex_out (r : Nat) : restartName r ∉ [['o'], ['n'], ['c'], ['d']] := by
  intro h
  simp only [List.mem_cons, List.not_mem_nil, or_false] at h
  rcases h with h | h | h | h <;> exact restart_ne r (by decide) h

theorem ex_apart (i1 i2 : Info) (h1 : i1.ns = 1) (h2 : i2.ns = 1) (a b : Nat) : FourDSingle.apart exOld exTwo i1 i2 a b + 2 * 2 ^ (-1 : ℤ) ≤ 10 := by
  have e : ∀ w, northY w 73 = 600000000 := fun w => by cases w <;> rfl
  unfold FourDSingle.apart exOld exTwo
  rw [h1, h2, north_meant _ _ _ 73 (by simp), north_meant _ _ _ 73 (by simp), e, e, sub_self, abs_zero]
  norm_num

theorem ex_ends {f : ℚ → ℚ} (hf : GoodRoot f) (asserts : Bool) (bits : ℚ → BitVec 32) (dflt : Crd ℚ) (v : Bool) (c : Name)
    (hc : c ≠ [] ∧ c ≠ ['o'] ∧ c ≠ ['n']) :
    ∃ n, ∀ fuel, n ≤ fuel → ∃ w', main asserts true bits f exConvR (keySort xLess) fuel insIndex id dflt 1
      ((exArgs v c).flatMap fun a => a.given.words) exWorld = .ok w' := by
  obtain ⟨t1, t2, R⟩ := ex_ready hf
  exact C107_ends_partial f (-1) exConvR (keySort xLess) insIndex id 1 exOld exTwo _ _ (exOpts v c) R asserts true bits dflt _
    (ex_parse v c) exWorld ex_w1 ex_w2 ⟨by simp [exOpts], by simp [exOpts], hc.1, by simp [exOpts]⟩ hc.2.1 hc.2.2 (by simp [exOpts])
    (fun _ => ⟨rfl, fun r _ => ⟨(restart_ne (x := ['o']) r (by decide)).symm, (restart_ne (x := ['n']) r (by decide)).symm⟩⟩)
    (fun a b _ _ => ex_apart _ _ rfl rfl a b) (show 1 ≤ 3 by decide) (show 2 * 1 ≤ 2 by decide)

theorem main_run {asserts dir : Bool} {bits : ℚ → BitVec 32} {f : ℚ → ℚ} {cvd : Conv ℚ ℚ} {srt : List XRec → List XRec} {fuel : Nat}
    {idx : List Nat → List Nat} {sched : List (Put ℚ) → List (Put ℚ)} {dflt : Crd ℚ} {P : Nat} {argv : List Name} {o : Opts}
    (h : parse argv = .ok o) (w : World) :
    main asserts dir bits f cvd srt fuel idx sched dflt P argv w = run asserts dir bits f cvd srt fuel idx sched dflt P o w := by
  unfold main
  rw [h, Res.ok_bind]

/-- The outputs and the records. -/
example (f : ℚ → ℚ) (hf : GoodRoot f) (bits : ℚ → BitVec 32) (dflt : Crd ℚ) : ∃ n, ∀ fuel, n ≤ fuel → ∃ w',
    main true true bits f exConvR (keySort xLess) fuel insIndex id dflt 1 ((exArgs true ['c']).flatMap fun a => a.given.words) exWorld = .ok w' ∧
    w' ['o'] = some exOld ∧
    (∃ pairs o1 o2, w' ['c'] = some o1 ∧ w' ['d'] = some o2 ∧ ∀ t1 t2, Written true exOld exTwo ⟨1, 3, exInc false, 5#16, t1⟩
      ⟨1, 2, exInc false, 5#16, t2⟩ pairs o1 o2) ∧
    ∃ m d, w' (restartName 0) = some d ∧ Recorded bits m d := by
  obtain ⟨t1, t2, R⟩ := ex_ready hf
  obtain ⟨n1, h1⟩ := ex_ends hf true bits dflt true ['c'] (by decide)
  have hr : ∀ r : Nat, restartName r ∉ [['o'], ['n'], ['c'], ['d']] := ex_out
  obtain ⟨n2, c1s, c2s, -, -, h2⟩ := C107_files_partial f (-1) exConvR (keySort xLess) insIndex id 1 exOld exTwo _ _ (exOpts true ['c']) R true true
    bits dflt _ (ex_parse true ['c']) exWorld ex_w1 ex_w2 (by simp [exOpts]) (by simp [exOpts]) (fun _ r _ => ⟨(restart_ne r (by decide)).symm, (restart_ne r (by decide)).symm⟩)
  obtain ⟨n3, h3⟩ := C107_record_partial f (-1) exConvR (keySort xLess) insIndex id 1 exOld exTwo _ _ (exOpts true ['c']) R true
    bits dflt _ (ex_parse true ['c']) exWorld ex_w1 ex_w2 (by simp [exOpts]) (by simp [exOpts]) rfl (fun r _ => hr r)
  refine ⟨max n1 (max n2 n3), fun fuel hfu => ?_⟩
  obtain ⟨w', hw⟩ := h1 fuel (by omega)
  obtain ⟨⟨pairs, o1, o2, k1, k2, -, k3⟩, k4⟩ := h2 fuel w' (by omega) hw
  obtain ⟨ms, -, -, j1, -, -, -, j2⟩ := h3 fuel w' (by omega) hw
  refine ⟨w', hw, ?_, ⟨pairs, o1, o2, k1, k2, fun t1' t2' => ⟨?_, ?_, k3.traces⟩⟩, ?_⟩
  · exact k4 ['o'] (by simp [exOpts]) (by simp [exOpts]) fun _ r _ => (restart_ne r (by decide)).symm
  · exact k3.opens1
  · exact k3.opens2
  · obtain ⟨d, e1, e2⟩ := j2 0 ms[0] (List.getElem?_eq_getElem (by omega))
    exact ⟨_, d, e1, e2⟩

/-- The records in the default build, and what `-v` does without the directory. -/
example (f : ℚ → ℚ) (hf : GoodRoot f) (bits : ℚ → BitVec 32) (dflt : Crd ℚ) : ∃ n, ∀ fuel, n ≤ fuel →
    (∃ w' d, main false true bits f exConvR (keySort xLess) fuel insIndex id dflt 1 ((exArgs true ['c']).flatMap fun a => a.given.words) exWorld = .ok w' ∧
      w' (restartName 0) = some d ∧ d.size = 0) ∧
    run false false bits f exConvR (keySort xLess) fuel insIndex id dflt 1 (exOpts true ['c']) exWorld = .ub ∧
    run false false bits f exConvR (keySort xLess) fuel insIndex id dflt 1 (exOpts false ['o']) exWorld = .ub := by
  obtain ⟨t1, t2, R⟩ := ex_ready hf
  obtain ⟨n1, h1⟩ := ex_ends hf false bits dflt true ['c'] (by decide)
  obtain ⟨n0, h0⟩ := ex_ends hf false bits dflt false ['c'] (by decide)
  obtain ⟨n3, h3⟩ := C107_record_refuted f (-1) exConvR (keySort xLess) insIndex id 1 exOld exTwo _ _ (exOpts true ['c']) R true
    bits dflt _ (ex_parse true ['c']) exWorld ex_w1 ex_w2 (by simp [exOpts]) rfl (fun r _ => ex_out r)
  refine ⟨max n0 (max n1 n3), fun fuel hfu => ⟨?_, ?_, ?_⟩⟩
  · obtain ⟨w', hw⟩ := h1 fuel (by omega)
    obtain ⟨d, e1, e2⟩ := h3 fuel w' (by omega) hw 0 (by omega)
    exact ⟨w', d, hw, e1, e2⟩
  · obtain ⟨w', hw⟩ := h1 fuel (by omega)
    rw [main_run (ex_parse true ['c'])] at hw
    have := C107_tmp_refuted _ _ _ _ _ _ _ _ _ _ _ _ _ _ hw
    exact this
  · obtain ⟨w', hw⟩ := h0 fuel (by omega)
    rw [main_run (ex_parse false ['c'])] at hw
    have hw' : run false false bits f exConvR (keySort xLess) fuel insIndex id dflt 1 (exOpts false ['c']) exWorld = .ok w' := hw
    exact C107_input_refuted _ _ _ _ _ _ _ _ _ _ _ (exOpts false ['c']) rfl (by simp [exOpts]) _ _ hw'

/-- Both outputs under one name, and a survey that is not there. -/
example (f : ℚ → ℚ) (hf : GoodRoot f) (bits : ℚ → BitVec 32) (dflt : Crd ℚ) : ∃ n, ∀ fuel, n ≤ fuel →
    (∃ w' o2, main false true bits f exConvR (keySort xLess) fuel insIndex id dflt 1 ((exArgs false ['d']).flatMap fun a => a.given.words) exWorld = .ok w' ∧
      w' ['d'] = some o2 ∧ ∀ j i, openRead o2 = .ok i → j < i.nt → ∃ b v, b < 2 ∧ Copied dbl true 1 exTwo b o2 j v) ∧
    main false true bits f exConvR (keySort xLess) fuel insIndex id dflt 1 ((exArgs false ['c']).flatMap fun a => a.given.words) (fun _ => none) = .abort := by
  obtain ⟨t1, t2, R⟩ := ex_ready hf
  obtain ⟨n1, h1⟩ := ex_ends hf false bits dflt false ['d'] (by decide)
  obtain ⟨n3, h3⟩ := C107_twice_refuted f (-1) exConvR (keySort xLess) insIndex id 1 exOld exTwo _ _ (exOpts false ['d']) R false true
    bits dflt _ (ex_parse false ['d']) exWorld ex_w1 ex_w2 rfl rfl
  refine ⟨max n1 n3, fun fuel hfu => ⟨?_, ?_⟩⟩
  · obtain ⟨w', hw⟩ := h1 fuel (by omega)
    obtain ⟨-, pairs, o2, e1, e2, e3⟩ := h3 fuel w' (by omega) hw
    refine ⟨w', o2, hw, e1, fun j i hi hj => ?_⟩
    rw [e2, Res.ok.injEq] at hi
    subst hi
    exact e3 j hj
  · exact (C107_missing _ _ _ _ _ _ _ _ _ _ _ _ (exOpts false ['c']) (ex_parse false ['c']) _).2 rfl

theorem ex_distance (i1 i2 : Info) (h1 : i1.ns = 1) (h2 : i2.ns = 1) (a b : Nat) : distance exOld exTwo i1 i2 a b ≤ 1 := by
  have h0 : ∀ x : ℝ, hyp 0 x = |x| := fun x => by unfold hyp; rw [mul_zero, zero_add, Real.sqrt_mul_self_eq_abs]
  unfold distance place dsr exOld exTwo
  dsimp only
  rw [h1, h2]
  repeat rw [north_meant _ _ _ 73 (by simp)]
  repeat rw [north_meant _ _ _ 77 (by simp)]
  repeat rw [north_meant _ _ _ 81 (by simp)]
  repeat rw [north_meant _ _ _ 85 (by simp)]
  cases (b == 0) <;> norm_num [northY, h0]

theorem ex_lines (i1 i2 : Info) (h1 : i1.ns = 1) (h2 : i2.ns = 1) (a b : Nat) : SameLines exOld exTwo i1 i2 a b := by
  have z : ∀ n v k x, 89 ≤ x → x ≤ 200 → (north n v).byte (3600 + k * (240 + 4 * 1) + (x - 1)) = 0#8 := by
    intro n v k x h1 h2
    rw [north_byte _ _ _ _ (by omega)]
    unfold northByte
    rw [if_neg (by omega), if_neg (by omega), if_neg (by omega), if_neg (by omega)]
  have e : ∀ n v k, Extremes.be32 (north n v) 1 k 189 = 0 ∧ Extremes.be32 (north n v) 1 k 193 = 0 := by
    intro n v k
    unfold Extremes.be32
    constructor
    · rw [z n v k 189 (by omega) (by omega), z n v k 190 (by omega) (by omega), z n v k 191 (by omega) (by omega), z n v k 192 (by omega) (by omega)]
      decide
    · rw [z n v k 193 (by omega) (by omega), z n v k 194 (by omega) (by omega), z n v k 195 (by omega) (by omega), z n v k 196 (by omega) (by omega)]
      decide
  unfold SameLines exOld exTwo
  rw [h1, h2, (e _ _ a).1, (e _ _ a).2, (e _ _ b).1, (e _ _ b).2]
  exact ⟨rfl, rfl⟩

/-- The second survey as the first output: there are two pairs at least, so its traces are all replaced. -/
example (f : ℚ → ℚ) (hf : GoodRoot f) (bits : ℚ → BitVec 32) (dflt : Crd ℚ) : ∃ n, ∀ fuel, n ≤ fuel →
    ∃ w'' o4 i4, run false true bits f exConvR (keySort xLess) fuel insIndex id dflt 1 (exOpts false ['n']) exWorld = .ok w'' ∧
      w'' ['d'] = some o4 ∧ openRead o4 = .ok i4 ∧ 2 ≤ i4.nt ∧ ∀ j, j < i4.nt → ∃ a, a < 3 ∧ SameTrace 1 exOld a o4 j := by
  obtain ⟨t1, t2, R⟩ := ex_ready hf
  obtain ⟨n1, h1⟩ := ex_ends hf false bits dflt false ['c'] (by decide)
  obtain ⟨n2, c1s, c2s, H1, H2, h2⟩ := C107_files_partial f (-1) exConvR (keySort xLess) insIndex id 1 exOld exTwo _ _ (exOpts false ['c']) R false true
    bits dflt _ (ex_parse false ['c']) exWorld ex_w1 ex_w2 (by simp [exOpts]) (by simp [exOpts]) (fun h => by cases h)
  obtain ⟨n3, h3⟩ := C107_over_refuted f (-1) exConvR (keySort xLess) insIndex id 1 exOld exTwo _ _ (exOpts false ['c']) R false true
    bits dflt exWorld ex_w1 ex_w2 (by simp [exOpts]) (by simp [exOpts]) (by simp [exOpts]) (by simp [exOpts]) rfl
  refine ⟨max n1 (max n2 n3), fun fuel hfu => ?_⟩
  obtain ⟨w', hw⟩ := h1 fuel (by omega)
  obtain ⟨⟨pairs, o1, o2, k1, k2, kc, kw⟩, -⟩ := h2 fuel w' (by omega) hw
  have two : 2 ≤ pairs.length := by
    obtain ⟨c1, rfl⟩ := List.length_eq_one_iff.1 H1.count
    obtain ⟨c2, rfl⟩ := List.length_eq_one_iff.1 H2.count
    have l1 : c1.length = 3 := by simpa using H1.all.length_eq
    have l2 : c2.length = 2 := by simpa using H2.all.length_eq
    have nd : (c1.map Crd.tn).Nodup := by
      have := H1.all.nodup_iff.2 List.nodup_range
      simpa using this
    have mem : ∀ i (hi : i < 2), (c1[i]'(by omega)).tn ∈ pairs.map Prod.fst := by
      intro i hi
      obtain ⟨b, v, hm, -⟩ := kc.best c1 (by simp) c2 (by simp) i 0 2 1 _ _ _ _ (List.getElem?_eq_getElem (by omega))
        (List.getElem?_eq_getElem (by omega)) (ex_apart _ _ rfl rfl _ _) (List.getElem?_eq_getElem (by omega)) (by omega)
        (ex_apart _ _ rfl rfl _ _) (List.getElem?_eq_getElem (by omega)) (by omega) (ex_apart _ _ rfl rfl _ _)
        (fun _ => ex_lines _ _ rfl rfl _ _) (by
          have := ex_distance ⟨1, 3, exInc false, 5#16, t1⟩ ⟨1, 2, exInc false, 5#16, t2⟩ rfl rfl (c1[i]'(by omega)).tn (c2[0]'(by omega)).tn
          generalize distance _ _ _ _ _ _ = D at *
          rw [zpow_neg]
          show D * _ + _ ≤ ((10 : ℚ) : ℝ)
          norm_num
          linarith)
      exact List.mem_map.2 ⟨_, hm, rfl⟩
    have hne : (c1[0]'(by omega)).tn ≠ (c1[1]'(by omega)).tn := by
      intro h
      have := (List.Nodup.getElem_inj_iff nd (i := 0) (j := 1) (hi := by simp; omega) (hj := by simp; omega)).1 (by simpa using h)
      omega
    have hsub : [(c1[0]'(by omega)).tn, (c1[1]'(by omega)).tn] ⊆ pairs.map Prod.fst := by
      intro x hx
      simp only [List.mem_cons, List.not_mem_nil, or_false] at hx
      rcases hx with rfl | rfl
      · exact mem 0 (by omega)
      · exact mem 1 (by omega)
    have := (List.subperm_of_subset (by simpa using hne) hsub).length_le
    simpa using this
  rw [main_run (ex_parse false ['c'])] at hw
  obtain ⟨w'', o4, e1, e2, e3, e4⟩ := h3 fuel w' o1 _ (by omega) hw k1 kw.opens1 two
  exact ⟨w'', o4, _, e1, e2, e3, two, e4⟩

end Verif.FourDMain
