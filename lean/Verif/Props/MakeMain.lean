import Verif.Util.MakeMain
import Verif.Props.SortMain
import Verif.Props.GenTool
import Verif.Props.RepTool
import Verif.Props.FourDMain

/-!
# C109: making files with `filemake` and `makerep`, from the arguments and files to the files

The claim: called with the name of a file, its numbers of samples and traces, an interval and an amount of memory, `filemake` makes this
file and leaves the others alone; called with the names of an input and of another file, `makerep` puts the traces of the input in the
latter as often as asked, and leaves the others alone. Calls that do not say what is needed, or that say what the programs do not know, end without a
file and with a status that says so.
-/

namespace Verif.MakeMain
open Verif.Endian Verif.Files Verif.Params Verif.Util Verif.Options Verif.FP Verif.Flow
open Verif.ConcatTool (World)
open Verif.FourDMain (stod number)
open Verif.Life (Name)

/-! ## The options of `filemake` -/

/-- An option of `filemake`: numbers as decimal digits, the interval as a text. -/
inductive Arg where
  | o (s : Name)
  | s (n : Nat)
  | t (n : Nat)
  | m (n : Nat)
  | i (s : Name)
  | l
  | r

def Arg.given : Arg → Given
  | .o v => .apart 'o' v
  | .s n => .apart 's' (decimal n)
  | .t n => .apart 't' (decimal n)
  | .m n => .apart 'm' (decimal n)
  | .i v => .apart 'i' v
  | .l => .flag 'l'
  | .r => .flag 'r'

def Arg.o? : Arg → Option Name | .o v => some v | _ => none
def Arg.s? : Arg → Option Nat | .s n => some n | _ => none
def Arg.t? : Arg → Option Nat | .t n => some n | _ => none
def Arg.m? : Arg → Option Nat | .m n => some n | _ => none
def Arg.i? : Arg → Option Name | .i v => some v | _ => none
def Arg.l? : Arg → Bool | .l => true | _ => false
def Arg.r? : Arg → Bool | .r => true | _ => false

/-- The numbers that can be read: counts of 64 bits, intervals with a value. -/
def Arg.Reads (val : Name → ℚ) : Arg → Prop
  | .s n => n < 2 ^ 64
  | .t n => n < 2 ^ 64
  | .m n => n < 2 ^ 64
  | .i v => stod v = .ok (val v)
  | _ => True

/-- The arguments as they are given. -/
def words (l : List Arg) : List Name := (l.map Arg.given).flatMap Given.words

theorem fits (l : List Arg) : ∀ g ∈ l.map Arg.given, g.Fits genSpec := by
  intro g hg
  obtain ⟨a, -, rfl⟩ := List.mem_map.1 hg
  cases a <;> rfl

/-- What a list of options sets. -/
def sets (val : Name → ℚ) (l : List Arg) (y : GenOpts) : GenOpts where
  name := (l.filterMap Arg.o?).getLast?.getD y.name
  ns := (l.filterMap Arg.s?).getLast?.getD y.ns
  nt := (l.filterMap Arg.t?).getLast?.getD y.nt
  max := (l.filterMap Arg.m?).getLast?.getD y.max
  inc := ((l.filterMap Arg.i?).getLast?.map val).getD y.inc
  lob := y.lob || l.any Arg.l?
  random := y.random || l.any Arg.r?

theorem fold_options (val : Name → ℚ) (l : List Arg) (hl : ∀ a ∈ l, a.Reads val) (y : GenOpts) :
    ((l.map Arg.given).filterMap Given.means).foldlM genOption y = .ok (sets val l y) := by
  induction l generalizing y with
  | nil => simp [sets]
  | cons a l ih =>
    have ha := hl a (by simp)
    have ih := ih fun b hb => hl b (List.mem_cons_of_mem _ hb)
    have step : ∀ z, genOption y (match a with
        | .o v => ('o', v) | .s n => ('s', decimal n) | .t n => ('t', decimal n) | .m n => ('m', decimal n) | .i v => ('i', v)
        | .l => ('l', []) | .r => ('r', [])) = .ok z →
        (((a :: l).map Arg.given).filterMap Given.means).foldlM genOption y = .ok (sets val l z) := by
      intro z hz
      cases a <;>
      · rw [← ih z, ← Res.ok_bind z fun z => ((l.map Arg.given).filterMap Given.means).foldlM genOption z, ← hz]
        rfl
    cases a with
    | o s => rw [step { y with name := s } rfl]; simp [sets, Arg.o?, Arg.s?, Arg.t?, Arg.m?, Arg.i?, Arg.l?, Arg.r?, List.getLast?_cons]
    | s n =>
      rw [step { y with ns := n } (by
        show (stoul (decimal n) >>= fun n => (Res.ok { y with ns := n } : Res GenOpts)) = _
        rw [SortMain.stoul_decimal ha]; rfl)]
      simp [sets, Arg.o?, Arg.s?, Arg.t?, Arg.m?, Arg.i?, Arg.l?, Arg.r?, List.getLast?_cons]
    | t n =>
      rw [step { y with nt := n } (by
        show (stoul (decimal n) >>= fun n => (Res.ok { y with nt := n } : Res GenOpts)) = _
        rw [SortMain.stoul_decimal ha]; rfl)]
      simp [sets, Arg.o?, Arg.s?, Arg.t?, Arg.m?, Arg.i?, Arg.l?, Arg.r?, List.getLast?_cons]
    | m n =>
      rw [step { y with max := n } (by
        show (stoul (decimal n) >>= fun n => (Res.ok { y with max := n } : Res GenOpts)) = _
        rw [SortMain.stoul_decimal ha]; rfl)]
      simp [sets, Arg.o?, Arg.s?, Arg.t?, Arg.m?, Arg.i?, Arg.l?, Arg.r?, List.getLast?_cons]
    | i s =>
      have ha : stod s = .ok (val s) := ha
      rw [step { y with inc := val s } (by
        show (stod s >>= fun v => (Res.ok { y with inc := v } : Res GenOpts)) = _
        rw [ha]; rfl)]
      rcases h : (l.filterMap Arg.i?).getLast? with _ | v <;>
      simp [sets, Arg.o?, Arg.s?, Arg.t?, Arg.m?, Arg.i?, Arg.l?, Arg.r?, List.getLast?_cons, h]
    | l => rw [step { y with lob := true } rfl]; simp [sets, Arg.o?, Arg.s?, Arg.t?, Arg.m?, Arg.i?, Arg.l?, Arg.r?]
    | r => rw [step { y with random := true } rfl]; simp [sets, Arg.o?, Arg.s?, Arg.t?, Arg.m?, Arg.i?, Arg.l?, Arg.r?]

/-- **C109** (the options of `filemake`). In any order; of each the last counts; without `-s` and `-t` there are no samples and no
traces. -/
theorem C109_filemake_options (val : Name → ℚ) (l : List Arg) (hl : ∀ a ∈ l, a.Reads val) :
    genParse (words l) = .ok ⟨(l.filterMap Arg.o?).getLast?.getD [], (l.filterMap Arg.s?).getLast?.getD 0,
      (l.filterMap Arg.t?).getLast?.getD 0, (l.filterMap Arg.m?).getLast?.getD 0, ((l.filterMap Arg.i?).getLast?.map val).getD 0,
      l.any Arg.l?, l.any Arg.r?⟩ := by
  unfold genParse words
  rw [C101_options genSpec (by decide) _ (fits l), fold_options val l hl]
  simp [sets]

/-- **C109** (the interval). A text with a number of `m` microseconds, up to an eighth, is read as such, up to a quarter. -/
theorem C109_interval {s : Name} {q : ℚ} {m : ℤ} (hq : number s = some q) (hm0 : 1 ≤ m) (hm1 : m ≤ 32767)
    (hn : |q * 10 ^ 6 - m| ≤ 1 / 8) : ∃ v, stod s = .ok v ∧ |v * 10 ^ 6 - m| ≤ 1 / 4 := by
  have h0 : (1 : ℚ) ≤ m := by exact_mod_cast hm0
  have h1 : (m : ℚ) ≤ 32767 := by exact_mod_cast hm1
  obtain ⟨a, b⟩ := abs_le.1 hn
  have hq0 : 0 < q := by linarith
  have hlo : (2 : ℚ) ^ (-1022 : ℤ) ≤ |q| := by
    rw [abs_of_pos hq0]
    have : (2 : ℚ) ^ (-1022 : ℤ) ≤ 2 ^ (-30 : ℤ) := zpow_le_zpow_right₀ (by norm_num) (by norm_num)
    refine le_trans this ?_
    norm_num
    linarith
  have he := FP.rnd_err hlo
  rw [abs_of_pos hq0] at he
  have hs : q / 2 ^ 53 ≤ 1 / 10 ^ 8 := by norm_num; linarith
  obtain ⟨e1, e2⟩ := abs_le.1 (le_trans he hs)
  refine ⟨FP.rnd q, ?_, ?_⟩
  · unfold stod
    rw [hq]
    dsimp only
    rw [if_neg]
    rintro (h | ⟨h, -⟩)
    · have h2 : |FP.rnd q| ≤ 2 ^ 1 := by rw [abs_le]; constructor <;> linarith
      exact absurd (le_trans h h2) (not_le.2 (pow_lt_pow_right₀ (by norm_num) (by norm_num)))
    · exact absurd hlo (not_le.2 h)
  · rw [abs_le]
    constructor <;> linarith

/-! ## `filemake` -/

theorem words_ne {l : List Arg} (h : l ≠ []) : words l ≠ [] := by
  obtain ⟨a, r, rfl⟩ := List.exists_cons_of_ne_nil h
  cases a <;> simp [words, Arg.given, Given.words]

/-- **C109** (`filemake` without what it needs). Without arguments the status is 1 and no file is touched; without a name, without the
memory or without the interval, with an empty name or a memory or interval of zero, an assertion fails. -/
theorem C109_filemake_status (bits : Nat → BitVec 32) (sched : List Gen.Put → List Gen.Put) (P : Nat) (w : World) :
    genMain bits sched P [] w = .ok (1, w) ∧
    ∀ (val : Name → ℚ) (l : List Arg), l ≠ [] → (∀ a ∈ l, a.Reads val) →
      ((l.filterMap Arg.o?).getLast?.getD [] = [] ∨ (l.filterMap Arg.m?).getLast?.getD 0 = 0 ∨
        ((l.filterMap Arg.i?).getLast?.map val).getD 0 = 0) → genMain bits sched P (words l) w = .abort := by
  refine ⟨rfl, fun val l h hl hc => ?_⟩
  unfold genMain
  rw [if_neg (words_ne h), C109_filemake_options val l hl, Res.ok_bind]
  dsimp only
  by_cases hn : (l.filterMap Arg.o?).getLast?.getD [] = []
  · rw [if_pos hn]
  · rw [if_neg hn]
    unfold Gen.filemake
    rw [if_pos (by tauto)]
    rfl

/-- What the options say: the name, the memory, the samples, the traces (zero if it is not said), the interval in microseconds. -/
structure Asked (val : Name → ℚ) (l : List Arg) (x : Name) (M ns nt : Nat) (m : ℤ) : Prop where
  reads : ∀ a ∈ l, a.Reads val
  name : (l.filterMap Arg.o?).getLast? = some x
  named : x ≠ []
  mem : (l.filterMap Arg.m?).getLast?.getD 0 = M
  samples : (l.filterMap Arg.s?).getLast?.getD 0 = ns
  traces : (l.filterMap Arg.t?).getLast?.getD 0 = nt
  inc : ∃ s q, (l.filterMap Arg.i?).getLast? = some s ∧ number s = some q ∧ |q * 10 ^ 6 - m| ≤ 1 / 8

theorem Asked.parse {val : Name → ℚ} {l : List Arg} {x : Name} {M ns nt : Nat} {m : ℤ} (h : Asked val l x M ns nt m)
    (hm0 : 1 ≤ m) (hm1 : m ≤ 32767) :
    ∃ v : ℚ, |v * 10 ^ 6 - m| ≤ 1 / 4 ∧ genParse (words l) = .ok ⟨x, ns, nt, M, v, l.any Arg.l?, l.any Arg.r?⟩ := by
  obtain ⟨s, q, h1, h2, h3⟩ := h.inc
  obtain ⟨v, v1, v2⟩ := C109_interval h2 hm0 hm1 h3
  have hs : Arg.i s ∈ l := by
    obtain ⟨a, ha, ha'⟩ := List.mem_filterMap.1 (List.mem_of_getLast? h1)
    cases a <;> simp [Arg.i?] at ha'
    rw [← ha']; exact ha
  have hv : stod s = .ok (val s) := h.reads _ hs
  rw [v1, Res.ok.injEq] at hv
  refine ⟨v, v2, ?_⟩
  rw [C109_filemake_options val l h.reads, h.name, h.mem, h.samples, h.traces, h1]
  simp [hv]

theorem Asked.ne {val : Name → ℚ} {l : List Arg} {x : Name} {M ns nt : Nat} {m : ℤ} (h : Asked val l x M ns nt m) : l ≠ [] := by
  rintro rfl
  have := h.name
  simp at this

/-- **C109** (partial: `filemake`). The file that is asked for is made, whatever was there before, and no other file is touched:
without `-r` all of it, with `-r` all headers, with the samples of another trace on more than one process. What is missing: more than 2^25 traces
(`C89_lines_refuted`) or 2^60 bytes of memory (`C89_memory_refuted`). -/
theorem C109_filemake_partial (bits : Nat → BitVec 32) (sched : List Gen.Put → List Gen.Put) (hs : ∀ l, (sched l).Perm l)
    (val : Name → ℚ) (l : List Arg) (x : Name) {P M ns nt : Nat} {m : ℤ} (h : Asked val l x M ns nt m) (hP : 0 < P)
    (hlob : Arg.l ∈ l → (P - 1) * (P * (P + 1)) ≤ 4 * nt) (hM0 : 1 ≤ M) (hM1 : M ≤ 2 ^ 40) (h0 : 0 < ns) (h1 : ns ≤ 32767)
    (hnt : nt ≤ 2 ^ 25 - 4800) (hm0 : 1 ≤ m) (hm1 : m ≤ 32767) (w : World) :
    ∃ out', genMain bits sched P (words l) w = .ok (0, Function.update w x (some out')) ∧
      out'.size = 3600 + nt * (240 + 4 * ns) ∧
      openRead out' = .ok ⟨ns, nt, rnd (micro * m), 5#16, CCreate.testText ++ List.replicate 3190 0⟩ ∧
      ∀ k, k < nt → ∃ g, g ≤ k ∧ (Arg.r ∉ l ∨ P = 1 → g = k) ∧ CCreate.Made (fun n => bits (n - k * ns + g * ns)) ns k
        (2400 + min k (2 * (nt / 2) - k)) (1600 + min k (2 * (nt / 2) - k)) (min k (2 * (nt / 2) - k)) out' := by
  obtain ⟨v, hv, hp⟩ := h.parse hm0 hm1
  have hany : ∀ (f : Arg → Bool) (a : Arg), (∀ b, f b = true ↔ b = a) → (l.any f = true ↔ a ∈ l) := by
    intro f a hf
    rw [List.any_eq_true]
    constructor
    · rintro ⟨b, hb, hb'⟩; rw [← (hf b).1 hb']; exact hb
    · intro ha; exact ⟨a, ha, (hf a).2 rfl⟩
  have hL := hany Arg.l? .l (by intro b; cases b <;> simp [Arg.l?])
  have hR := hany Arg.r? .r (by intro b; cases b <;> simp [Arg.r?])
  have run : ∀ out', Gen.filemake bits sched (l.any Arg.l?) (l.any Arg.r?) P M ns nt v (before w x) = .ok out' →
      genMain bits sched P (words l) w = .ok (0, Function.update w x (some out')) := by
    intro out' ho
    unfold genMain
    rw [if_neg (words_ne h.ne), hp, Res.ok_bind]
    dsimp only
    rw [if_neg h.named, ho]
    rfl
  by_cases hr : Arg.r ∈ l
  · have e := hR.2 hr
    rw [e] at run
    obtain ⟨out', a, b, c, d⟩ := Gen.C89_scattered_partial bits sched hs (l.any Arg.l?) hP (fun q => hlob (hL.1 q)) hM0 hM1 h0 h1 hnt
      hm0 hm1 hv (before w x)
    refine ⟨out', run out' a, b, c, fun k hk => ?_⟩
    obtain ⟨g, g1, g2, g3⟩ := d k hk
    exact ⟨g, g1, fun q => g2 (q.resolve_left (not_not.2 hr)), g3⟩
  · have e : l.any Arg.r? = false := by rw [← Bool.not_eq_true, hR]; exact hr
    rw [e] at run
    obtain ⟨out', a, b, c, d⟩ := Gen.C89_contiguous_partial bits sched hs (l.any Arg.l?) hP (fun q => hlob (hL.1 q)) hM0 hM1 h0 h1 hnt
      hm0 hm1 hv (before w x)
    refine ⟨out', run out' a, b, c, fun k hk => ⟨k, le_rfl, fun _ => rfl, ?_⟩⟩
    refine { d k hk with samples := fun s h => ?_ }
    rw [(d k hk).samples s h]
    congr 1
    omega

/-- `filemake -o a.segy -s 7 -m 1 -t 100 -i 0.004 -l -m 64`. -/
def exArgs : List Arg := [.o "a.segy".toList, .s 7, .m 1, .t 100, .i "0.004".toList, .l, .m 64]

theorem ex_number : number "0.004".toList = some (4 / 1000) := by
  have := FourDMain.C107_number [] (by simp) none 0 (some (2, 4)) none
  rw [show "0.004".toList = [] ++ (FourDMain.signText none ++ (decimal 0 ++ (FourDMain.fracText (some (2, 4)) ++ FourDMain.expText none))) by
    decide +kernel, this]
  simp [FourDMain.fracVal, FourDMain.expVal, show (decimal 4).length = 1 by decide +kernel]
  norm_num

theorem ex_asked (m1 : List Arg) (M : Nat) (hm : m1 = [.m 64] ∧ M = 64 ∨ m1 = [] ∧ M = 0) :
    ∃ val, Asked val ([.o "a.segy".toList, .s 7, .t 100, .i "0.004".toList, .r] ++ m1) "a.segy".toList M 7 100 4000 := by
  obtain ⟨v, hv, -⟩ := C109_interval (m := 4000) ex_number (by norm_num) (by norm_num) (by norm_num)
  refine ⟨fun _ => v, ?_, ?_, by decide, ?_, ?_, ?_, "0.004".toList, 4 / 1000, ?_, ex_number, by norm_num⟩
  · rcases hm with ⟨rfl, -⟩ | ⟨rfl, -⟩ <;> simp [Arg.Reads] <;> exact hv
  all_goals rcases hm with ⟨rfl, rfl⟩ | ⟨rfl, rfl⟩ <;> rfl

/-- The hypotheses: 100 traces of 7 samples at 4 ms in any order on three processes. -/
example (w : World) : ∃ val l o, Asked val l "a.segy".toList 64 7 100 4000 ∧
    genMain (BitVec.ofNat 32) List.reverse 3 (words l) w = .ok (0, Function.update w "a.segy".toList (some o)) := by
  obtain ⟨val, h⟩ := ex_asked [.m 64] 64 (Or.inl ⟨rfl, rfl⟩)
  obtain ⟨o, ho, -⟩ := C109_filemake_partial (BitVec.ofNat 32) List.reverse (fun l => List.reverse_perm l) val _ _ h (P := 3) (by norm_num)
    (by simp) (by norm_num) (by norm_num) (by norm_num) (by norm_num) (by norm_num) (by norm_num) (by norm_num) w
  exact ⟨val, _, o, h, ho⟩

example : words exArgs = ["-o".toList, "a.segy".toList, "-s".toList, "7".toList, "-m".toList, "1".toList, "-t".toList, "100".toList,
    "-i".toList, "0.004".toList, "-l".toList, "-m".toList, "64".toList] := by decide +kernel

example (w : World) : genMain (BitVec.ofNat 32) id 2 ["-s".toList, "7".toList] w = .abort :=
  (C109_filemake_status (BitVec.ofNat 32) id 2 w).2 (fun _ => 0) [.s 7] (by simp) (by simp [Arg.Reads]) (Or.inl rfl)

theorem bind_same {α : Type} (x : Res α) (f : α → Res α) (h : ∀ a, f a = .ok a) : (x >>= f) = x := by
  cases x with
  | ok a => rw [Res.ok_bind, h]
  | ub => rfl
  | abort => rfl

theorem fold_append {α β : Type} (f : α → β → Res α) (l r : List β) (a : α) :
    (l ++ r).foldlM f a = l.foldlM f a >>= fun b => r.foldlM f b := by
  induction l generalizing a with
  | nil => rfl
  | cons x l ih =>
    show (f a x >>= fun b => (l ++ r).foldlM f b) = ((f a x >>= fun b => l.foldlM f b) >>= fun b => r.foldlM f b)
    cases f a x with
    | ok b => rw [Res.ok_bind, Res.ok_bind, ih]
    | ub => rfl
    | abort => rfl

theorem before_le {w : World} {y : Name} {n : Nat} (h : ∀ d, w y = some d → d.size ≤ n) : (before w y).size ≤ n := by
  unfold before
  rcases e : w y with _ | q
  · exact Nat.zero_le n
  · exact h q e

/-- **C109** fails for arguments that `filemake` does not know and for an option without its value: they only give a message, and all
goes on with the status 0 as if they were not there. -/
theorem C109_ignored_refuted (bits : Nat → BitVec 32) (sched : List Gen.Put → List Gen.Put) (P : Nat) (l : List Arg) (hl : l ≠ [])
    (w : World) : (∀ z, z ∉ ['s', 't', 'm', 'o', 'i', 'l', 'r', '-'] →
      genMain bits sched P (words l ++ [['-', z]]) w = genMain bits sched P (words l) w) ∧
    ∀ c ∈ ['s', 't', 'm', 'o', 'i'], genMain bits sched P (words l ++ [['-', c]]) w = genMain bits sched P (words l) w := by
  have key : ∀ a : Name, getopt genSpec [a] = [('?', [])] →
      genMain bits sched P (words l ++ [a]) w = genMain bits sched P (words l) w := by
    intro a ha
    have hp : genParse (words l ++ [a]) = genParse (words l) := by
      unfold genParse words
      rw [getopt_append genSpec (by decide) _ (fits l), ha, fold_append, C101_options genSpec (by decide) _ (fits l)]
      exact bind_same _ _ fun o => rfl
    unfold genMain
    rw [hp, if_neg (by simp), if_neg (words_ne hl)]
  refine ⟨fun z hz => key _ ?_, fun c hc => key _ ?_⟩
  · simp only [List.mem_cons, List.not_mem_nil, or_false, not_or] at hz
    have hs : genSpec z = none := by unfold genSpec; rw [if_neg (by tauto), if_neg (by tauto)]
    have := (C101_letters genSpec [z] (by simp [hs]) (by simpa using hz.2.2.2.2.2.2.2) 's' rfl (by decide) [] []).1 (by simp)
    rw [this]
    simp [each, hs, getopt]
  · fin_cases hc <;> rfl

/-- **C109** fails in the default build, which has no assertions: without the memory, or with a memory of zero, `filemake` divides by
zero. -/
theorem C109_release_refuted (bits : Nat → BitVec 32) (sched : List Gen.Put → List Gen.Put) (val : Name → ℚ) (l : List Arg) (x : Name)
    {P ns nt : Nat} {m : ℤ} (h : Asked val l x 0 ns nt m) (hP : 0 < P) (hlob : Arg.l ∉ l) (h1 : ns ≤ 32767) (hnt : nt ≤ 2 ^ 30)
    (hm0 : 1 ≤ m) (hm1 : m ≤ 32767) (w : World) : genMainR bits sched P (words l) w = .ub := by
  obtain ⟨v, hv, hp⟩ := h.parse hm0 hm1
  have hL : l.any Arg.l? = false := by
    rw [← Bool.not_eq_true, List.any_eq_true]
    rintro ⟨b, hb, hb'⟩
    cases b <;> simp [Arg.l?] at hb'
    exact hlob hb
  have hv0 : v ≠ 0 := by
    rintro rfl
    have h0 : (1 : ℚ) ≤ m := by exact_mod_cast hm0
    obtain ⟨a, b⟩ := abs_le.1 hv
    linarith
  have := Gen.C89_memory_refuted bits sched (l.any Arg.r?) (M := 2 ^ 44) hP (by norm_num) (dvd_refl _) h1 hnt hm0 hm1 hv (before w x)
  unfold Gen.filemake at this
  rw [if_neg (by push Not; exact ⟨by norm_num, hv0⟩), show mul64 (2 ^ 44) (2 ^ 20) = 0 by decide +kernel] at this
  unfold genMainR
  rw [if_neg (words_ne h.ne), hp, Res.ok_bind]
  dsimp only
  rw [if_neg h.named, hL, show mul64 0 (2 ^ 20) = 0 by decide +kernel, this]
  rfl

/-- Without `-m`, on two processes. -/
example (w : World) : ∃ l, genMainR (BitVec.ofNat 32) id 2 (words l) w = .ub := by
  obtain ⟨val, h⟩ := ex_asked [] 0 (Or.inr ⟨rfl, rfl⟩)
  exact ⟨_, C109_release_refuted (BitVec.ofNat 32) id val _ _ h (by norm_num) (by simp) (by norm_num) (by norm_num) (by norm_num)
    (by norm_num) w⟩

example (w : World) : genMain (BitVec.ofNat 32) id 2 ["-s".toList, "7".toList, "-h".toList] w =
    genMain (BitVec.ofNat 32) id 2 ["-s".toList, "7".toList] w :=
  (C109_ignored_refuted (BitVec.ofNat 32) id 2 [.s 7] (by simp) w).1 'h' (by decide)

/-! ## `makerep` -/

/-- The words for the versions. -/
def word : Version → Name
  | .block => "standard".toList
  | .naive1 => "naive1".toList
  | .naive2 => "naive2".toList

/-- An option of `makerep`. -/
inductive RepArg where
  | i (s : Name)
  | o (s : Name)
  | v (x : Version)
  | r (n : Nat)

def RepArg.given : RepArg → Given
  | .i s => .apart 'i' s
  | .o s => .apart 'o' s
  | .v x => .apart 'v' (word x)
  | .r n => .apart 'r' (decimal n)

def RepArg.i? : RepArg → Option Name | .i s => some s | _ => none
def RepArg.o? : RepArg → Option Name | .o s => some s | _ => none
def RepArg.v? : RepArg → Option Version | .v x => some x | _ => none
def RepArg.r? : RepArg → Option Nat | .r n => some n | _ => none

/-- The arguments as they are given. -/
def repWords (l : List RepArg) : List Name := (l.map RepArg.given).flatMap Given.words

theorem repFits (l : List RepArg) : ∀ g ∈ l.map RepArg.given, g.Fits repSpec := by
  intro g hg
  obtain ⟨a, -, rfl⟩ := List.mem_map.1 hg
  cases a <;> rfl

theorem repFold (l : List RepArg) (hl : ∀ n, RepArg.r n ∈ l → n < 2 ^ 64) (y : RepOpts) :
    ((l.map RepArg.given).filterMap Given.means).foldlM repOption y = .ok ⟨(l.filterMap RepArg.i?).getLast?.getD y.iname,
      (l.filterMap RepArg.o?).getLast?.getD y.oname, (l.filterMap RepArg.r?).getLast?.getD y.rep,
      ((l.filterMap RepArg.v?).getLast?.map fun x => some (String.ofList (word x))).getD y.version⟩ := by
  induction l generalizing y with
  | nil => simp
  | cons a l ih =>
    have ih := ih fun n hn => hl n (List.mem_cons_of_mem _ hn)
    cases a with
    | i s =>
      show ((Res.ok { y with iname := s } : Res RepOpts) >>= fun z => ((l.map RepArg.given).filterMap Given.means).foldlM repOption z) = _
      rw [Res.ok_bind, ih]
      simp [RepArg.i?, RepArg.o?, RepArg.v?, RepArg.r?, List.getLast?_cons]
    | o s =>
      show ((Res.ok { y with oname := s } : Res RepOpts) >>= fun z => ((l.map RepArg.given).filterMap Given.means).foldlM repOption z) = _
      rw [Res.ok_bind, ih]
      simp [RepArg.i?, RepArg.o?, RepArg.v?, RepArg.r?, List.getLast?_cons]
    | v x =>
      have hx : ∃ u, getVersion (some (String.ofList (word x))) = .ok u := by
        cases x <;> exact ⟨_, by unfold word; rw [String.ofList_toList]; rfl⟩
      obtain ⟨u, hu⟩ := hx
      show ((getVersion (some (String.ofList (word x))) >>= fun _ =>
        (Res.ok { y with version := some (String.ofList (word x)) } : Res RepOpts)) >>=
          fun z => ((l.map RepArg.given).filterMap Given.means).foldlM repOption z) = _
      rw [hu, Res.ok_bind, Res.ok_bind, ih]
      rcases h : (l.filterMap RepArg.v?).getLast? with _ | k <;>
      simp [RepArg.i?, RepArg.o?, RepArg.v?, RepArg.r?, List.getLast?_cons, h]
    | r n =>
      show ((stoul (decimal n) >>= fun n => (Res.ok { y with rep := n } : Res RepOpts)) >>=
        fun z => ((l.map RepArg.given).filterMap Given.means).foldlM repOption z) = _
      rw [SortMain.stoul_decimal (hl n (by simp)), Res.ok_bind, Res.ok_bind, ih]
      simp [RepArg.i?, RepArg.o?, RepArg.v?, RepArg.r?, List.getLast?_cons]

/-- **C109** (the options of `makerep`). In any order; of each the last counts; without `-r` the traces are repeated once. -/
theorem C109_makerep_options (l : List RepArg) (hl : ∀ n, RepArg.r n ∈ l → n < 2 ^ 64) :
    repParse (repWords l) = .ok ⟨(l.filterMap RepArg.i?).getLast?.getD [], (l.filterMap RepArg.o?).getLast?.getD [],
      (l.filterMap RepArg.r?).getLast?.getD 1, (l.filterMap RepArg.v?).getLast?.map fun x => String.ofList (word x)⟩ := by
  unfold repParse repWords
  rw [C101_options repSpec (by decide) _ (repFits l), repFold l hl]
  rcases (l.filterMap RepArg.v?).getLast? with _ | k <;> simp

/-- **C109** (`makerep` without what it needs). Without a name, with an empty one, or if the input is not there, the program ends with
a failure. -/
theorem C109_makerep_status (sched : List Put → List Put) (junk : Byte) (N : Nat) (l : List RepArg)
    (hl : ∀ n, RepArg.r n ∈ l → n < 2 ^ 64) (w : World)
    (h : (l.filterMap RepArg.i?).getLast?.getD [] = [] ∨ (l.filterMap RepArg.o?).getLast?.getD [] = [] ∨
      w ((l.filterMap RepArg.i?).getLast?.getD []) = none) : repMain sched junk N (repWords l) w = .abort := by
  unfold repMain
  rw [C109_makerep_options l hl, Res.ok_bind]
  dsimp only
  by_cases hn : (l.filterMap RepArg.i?).getLast?.getD [] = [] ∨ (l.filterMap RepArg.o?).getLast?.getD [] = []
  · rw [if_pos hn]
  · rw [if_neg hn]
    have : w ((l.filterMap RepArg.i?).getLast?.getD []) = none := by tauto
    rw [this]

theorem word_named (x : Version) : Named (some (String.ofList (word x))) x := by
  cases x
  · unfold Util.Named word; rw [String.ofList_toList]; exact Or.inr rfl
  · unfold Util.Named word; rw [String.ofList_toList]
  · unfold Util.Named word; rw [String.ofList_toList]

/-- The version that is chosen. -/
theorem named_last (l : List RepArg) : Named ((l.filterMap RepArg.v?).getLast?.map fun x => String.ofList (word x))
    ((l.filterMap RepArg.v?).getLast?.getD .block) := by
  rcases (l.filterMap RepArg.v?).getLast? with _ | x
  · exact Or.inl rfl
  · exact word_named x

/-- **C109** (partial: `makerep`). From a SEG-Y file `x` a file `y` with the same headers is made, with its traces as often as `-r` says, and no
other file is touched. What is missing: an output that was longer before (`C93_stale_refuted`), inputs with bytes behind the last trace
(`C93_trailing_refuted`), and the sizes for which the versions are wrong (`C93_default_refuted`). -/
theorem C109_makerep_partial (sched : List Put → List Put) (hs : ∀ l, (sched l).Perm l) (junk : Byte) (N : Nat) (l : List RepArg)
    (hl : ∀ n, RepArg.r n ∈ l → n < 2 ^ 64) {x y : Name} {rep : Nat} (hx : (l.filterMap RepArg.i?).getLast? = some x)
    (hy : (l.filterMap RepArg.o?).getLast? = some y) (hr : (l.filterMap RepArg.r?).getLast?.getD 1 = rep) (hx0 : x ≠ []) (hy0 : y ≠ [])
    (hxy : y ≠ x) (w : World) {inp : Disk} (hw : w x = some inp) {i : Info} (hi : openRead inp = .ok i) (hns : i.ns ≤ 32767)
    (hsz : inp.size = 3600 + i.nt * (240 + 4 * i.ns)) (hfit : Fits ((l.filterMap RepArg.v?).getLast?.getD .block) rep N inp.size)
    (hout : ∀ d, w y = some d → d.size ≤ 3600 + i.nt * rep * (240 + 4 * i.ns)) :
    ∃ out', repMain sched junk N (repWords l) w = .ok (Function.update w y (some out')) ∧
      out'.size = 3600 + i.nt * rep * (240 + 4 * i.ns) ∧
      (∀ p, p < 3600 → out'.byte p = inp.byte p) ∧ openRead out' = .ok { i with nt := i.nt * rep } ∧
      records out' i.ns (i.nt * rep) = (List.replicate rep (records inp i.ns i.nt)).flatten := by
  obtain ⟨out', a, b, c, d, e⟩ := C93_copies_partial _ _ (named_last l) rep N sched hs junk inp (before w y) i hi hns hsz hfit
    (before_le hout)
  refine ⟨out', ?_, b, c, d, e⟩
  unfold repMain
  rw [C109_makerep_options l hl, Res.ok_bind]
  dsimp only
  rw [hx, hy, hr]
  dsimp only [Option.getD_some]
  rw [if_neg (by tauto), hw]
  dsimp only
  rw [if_neg hxy, a]
  rfl

/-- Two traces three times on four processes. -/
example : ∃ o t, repMain List.reverse 0#8 4 ["-v".toList, "naive2".toList, "-o".toList, "b".toList, "-r".toList, "3".toList, "-i".toList,
      "a".toList] (fun n => if n = "a".toList then some (exFile false 2 7#8) else none) =
        .ok (Function.update (fun n => if n = "a".toList then some (exFile false 2 7#8) else none) "b".toList (some o)) ∧
    openRead o = .ok ⟨1, 6, exInc false, 5#16, t⟩ := by
  obtain ⟨t, ho⟩ := exFile_open false (n := 2) 7#8 (by decide)
  obtain ⟨o, h1, -, -, h2, -⟩ := C109_makerep_partial List.reverse (fun l => List.reverse_perm l) 0#8 4
    [.v .naive2, .o "b".toList, .r 3, .i "a".toList] (by simp) (x := "a".toList) (y := "b".toList) (rep := 3) rfl rfl rfl (by decide)
    (by decide) (by decide) (fun n => if n = "a".toList then some (exFile false 2 7#8) else none) (if_pos rfl) ho (show 1 ≤ 32767 by decide)
    rfl ⟨by decide, by decide, by decide, by decide, Or.inl (by decide)⟩ (by intro d hd; rw [if_neg (by decide)] at hd; cases hd)
  exact ⟨o, t, h1, h2⟩

/-- **C109** fails for a word that is not one of the three after `-v`: the program is undefined, even if the word for a version comes
after it. -/
theorem C109_version_refuted (sched : List Put → List Put) (junk : Byte) (N : Nat) (l : List RepArg)
    (hl : ∀ n, RepArg.r n ∈ l → n < 2 ^ 64) (s : Name) (h : ∀ x, s ≠ word x) (rest : List Name) (w : World) :
    repMain sched junk N (repWords l ++ ['-', 'v'] :: s :: rest) w = .ub := by
  have hv : getVersion (some (String.ofList s)) = .ub := by
    have ne : ∀ (t : String) (x : Version), word x = t.toList → String.ofList s ≠ t := by
      rintro t x hx rfl
      exact h x (by rw [hx, String.toList_ofList])
    unfold getVersion
    dsimp only
    rw [if_neg (ne "standard" .block rfl), if_neg (ne "naive1" .naive1 rfl), if_neg (ne "naive2" .naive2 rfl)]
  have hg : getopt repSpec (['-', 'v'] :: s :: rest) = ('v', s) :: getopt repSpec rest := by
    have := (C101_letters repSpec [] (by simp) (by simp) 'v' rfl (by decide) s rest).2.1
    simpa [each] using this
  have : repParse (repWords l ++ ['-', 'v'] :: s :: rest) = .ub := by
    unfold repParse repWords
    rw [getopt_append repSpec (by decide) _ (repFits l), fold_append, repFold l hl, Res.ok_bind, hg]
    show ((getVersion (some (String.ofList s)) >>= fun _ => _) >>= fun z => (getopt repSpec rest).foldlM repOption z) = _
    rw [hv]
    rfl
  unfold repMain
  rw [this]
  rfl

theorem naive_zero (fsz step : Nat) (dec : Nat → Nat → Res Decomp.Dec) (fuel i : Nat) :
    naiveCopy fsz 0 step dec fuel i = naiveCopy fsz 1 step dec fuel i := by
  induction fuel generalizing i with
  | zero => rfl
  | succ fuel ih =>
    unfold naiveCopy
    simp only [ih]
    rfl

theorem standard_zero (N fsz step fuel i : Nat) : standardLoop N fsz 0 step fuel i = standardLoop N fsz 1 step fuel i := by
  induction fuel generalizing i with
  | zero => rfl
  | succ fuel ih =>
    unfold standardLoop
    simp only [ih]
    rfl

theorem puts_zero (v : Version) (N fsz : Nat) : repPuts v 0 N fsz = repPuts v 1 N fsz := by
  have h0 : smallCopy fsz 0 = smallCopy fsz 1 := rfl
  have h1 : naive1 fsz 0 N = naive1 fsz 1 N := by funext r; unfold naive1; rw [naive_zero]
  have h2 : naive2 fsz 0 N = naive2 fsz 1 N := by funext r; unfold naive2; rw [naive_zero]
  have h3 : standardCopy N fsz 0 = standardCopy N fsz 1 := by unfold standardCopy; rw [standard_zero]
  unfold repPuts
  rw [h0, h1, h2, h3]

/-- **C109** fails for `-r 0`: the traces are in the output once, as with `-r 1`. -/
theorem C109_zero_refuted (sched : List Put → List Put) (junk : Byte) (N : Nat) (l : List RepArg)
    (hl : ∀ n, RepArg.r n ∈ l → n < 2 ^ 64) (w : World) :
    repMain sched junk N (repWords (l ++ [.r 0])) w = repMain sched junk N (repWords (l ++ [.r 1])) w := by
  have z : ∀ (v : Option String) (inp out : Disk), makeRep v 0 N sched junk inp out = makeRep v 1 N sched junk inp out := by
    intro v inp out
    unfold makeRep
    simp only [puts_zero]
  have h : ∀ k, k < 2 ^ 64 → repParse (repWords (l ++ [.r k])) = .ok ⟨(l.filterMap RepArg.i?).getLast?.getD [],
      (l.filterMap RepArg.o?).getLast?.getD [], k, (l.filterMap RepArg.v?).getLast?.map fun x => String.ofList (word x)⟩ := by
    intro k hk
    rw [C109_makerep_options]
    · simp [RepArg.i?, RepArg.o?, RepArg.v?, RepArg.r?]
    · intro n hn
      rcases List.mem_append.1 hn with hn | hn
      · exact hl n hn
      · simp at hn; rw [hn]; exact hk
  unfold repMain
  rw [h 0 (by norm_num), h 1 (by norm_num), Res.ok_bind, Res.ok_bind]
  simp only [z]

example (w : World) : repMain id 0#8 2 ["-i".toList, "a".toList, "-v".toList, "naive".toList, "-v".toList, "naive1".toList] w = .ub :=
  C109_version_refuted id 0#8 2 [.i "a".toList] (by simp) "naive".toList (by intro x; cases x <;> decide) ["-v".toList, "naive1".toList] w

example (w : World) : repMain id 0#8 2 (repWords [.i "a".toList, .r 0]) w = repMain id 0#8 2 (repWords [.i "a".toList, .r 1]) w :=
  C109_zero_refuted id 0#8 2 [.i "a".toList] (by simp) w

/-- **C109** fails for one name for both files: what `makerep` does is undefined. -/
theorem C109_inplace_refuted (sched : List Put → List Put) (junk : Byte) (N : Nat) (l : List RepArg)
    (hl : ∀ n, RepArg.r n ∈ l → n < 2 ^ 64) {x : Name} (hx : (l.filterMap RepArg.i?).getLast? = some x)
    (hy : (l.filterMap RepArg.o?).getLast? = some x) (hx0 : x ≠ []) (w : World) {inp : Disk} (hw : w x = some inp) :
    repMain sched junk N (repWords l) w = .ub := by
  unfold repMain
  rw [C109_makerep_options l hl, Res.ok_bind]
  dsimp only
  rw [hx, hy]
  dsimp only [Option.getD_some]
  rw [if_neg (by tauto), hw]
  dsimp only
  rw [if_pos rfl]

end Verif.MakeMain
