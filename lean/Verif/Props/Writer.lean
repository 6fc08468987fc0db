import Verif.File.Writer
import Verif.File.Lemmas
import Verif.Props.Endian
import Verif.Props.CharEnc
import Mathlib.Data.List.Induction
/-!
# C21, C50: closing a writer, and the header a reader finds
-/
namespace Verif.Files
open Verif.Layout Verif.Endian Verif.FP

/-! ## Histories -/

/-- One step of a program using a writer.  The calls that set the header are
made alike by all processes; the write calls are collective, each process
passing its own traces: a first trace and a number, or a list. -/
inductive Step where
  | text (t : List Nat)
  | ns (n : Nat)
  | nt (n : Nat)
  | inc (x : ℚ)
  | write (f : Nat → Nat × Nat)
  | list (f : Nat → List Nat)

/-- The call process `r` makes. -/
def Step.act (r : Nat) (w : W) : Step → W
  | .text t => w.writeText t
  | .ns n => w.writeNs n
  | .nt n => w.writeNt n
  | .inc x => w.writeInc x
  | .write f => w.writeTrace (f r).1 (f r).2
  | .list f => w.writeList (f r)

/-- Process `r` after a history. -/
def runW1 (r : Nat) (h : List Step) : W := h.foldl (Step.act r) .new

/-- All processes. -/
def runAllW (P : Nat) (h : List Step) : List W := (List.range P).map (runW1 · h)

def Step.ns? : Step → Option Nat | .ns n => some n | _ => none
def Step.nt? : Step → Option Nat | .nt n => some n | _ => none
def Step.text? : Step → Option (List Nat) | .text t => some t | _ => none
def Step.inc? : Step → Option ℚ | .inc x => some x | _ => none

/-- The value set last. -/
def last? {α : Type} (sel : Step → Option α) (h : List Step) : Option α := (h.filterMap sel).getLast?

/-- Process `r` writes trace `k`. -/
def WritesTrace (r : Nat) (h : List Step) (k : Nat) : Prop :=
  (∃ f, .write f ∈ h ∧ (f r).1 ≤ k ∧ k < (f r).1 + (f r).2) ∨ ∃ f, .list f ∈ h ∧ k ∈ f r

/-- What process `r` writes is below `c`; a call without traces does not name a
place beyond `c` either; lists are in order, as MPI requires. -/
structure Within (r : Nat) (h : List Step) (c : Nat) : Prop where
  start : ∀ f, .write f ∈ h → (f r).1 + (f r).2 ≤ c
  inList : ∀ f, .list f ∈ h → ∀ k ∈ f r, k < c
  ordered : ∀ f, .list f ∈ h → (f r).Pairwise (· ≤ ·)

/-- `c` is the number of traces the file should have: the count declared last,
if what is written after the declaration fits; without declarations one more
than the highest trace written by any process. -/
def IsCount (P : Nat) (h : List Step) (c : Nat) : Prop :=
  (∃ h1 h2, h = h1 ++ .nt c :: h2 ∧ last? Step.nt? h2 = none ∧ ∀ r, r < P → Within r h2 c) ∨
  (last? Step.nt? h = none ∧ (∀ r, r < P → Within r h c) ∧ (c = 0 ∨ ∃ r, r < P ∧ WritesTrace r h (c - 1)))

/-- A text cut or padded to 3200 characters. -/
def shown (t : List Nat) : List Nat := t.take 3200 ++ List.replicate (3200 - t.length) 0

/-! ## Lemmas -/

theorem runW1_snoc (r : Nat) (h : List Step) (s : Step) : runW1 r (h ++ [s]) = s.act r (runW1 r h) := by
  unfold runW1; rw [List.foldl_append]; rfl

theorem last?_snoc {α : Type} (sel : Step → Option α) (h : List Step) (s : Step) :
    last? sel (h ++ [s]) = (sel s).or (last? sel h) := by
  unfold last?
  rw [List.filterMap_append]
  cases hs : sel s with
  | none => simp [hs]
  | some a => simp [hs]

theorem act_err (r : Nat) (w : W) (s : Step) (h : (s.act r w).err = false) : w.err = false := by
  cases s with
  | text t => simp only [Step.act, W.writeText] at h; split at h <;> exact h
  | ns n =>
    simp only [Step.act, W.writeNs] at h
    split at h
    · simp at h
    · split at h <;> exact h
  | nt n => simp only [Step.act, W.writeNt] at h; split at h <;> exact h
  | inc x =>
    simp only [Step.act, W.writeInc] at h
    split at h
    · simp at h
    · split at h <;> exact h
  | write f => simp only [Step.act, W.writeTrace, Bool.or_eq_false_iff] at h; exact h.1
  | list f => simp only [Step.act, W.writeList, Bool.or_eq_false_iff] at h; exact h.1

theorem run_ns (r : Nat) (h : List Step) (he : (runW1 r h).err = false) :
    (runW1 r h).ns = (last? Step.ns? h).getD 0 ∧ (runW1 r h).ns ≤ 32767 ∧
      ((runW1 r h).ns ≠ 0 → (runW1 r h).resize = true) ∧ (runW1 r h).writeHO = true := by
  induction h using List.reverseRecOn with
  | nil => exact ⟨rfl, Nat.zero_le _, fun h => absurd rfl h, rfl⟩
  | append_singleton h s ih =>
    rw [runW1_snoc] at he ⊢
    obtain ⟨i1, i2, i3, i4⟩ := ih (act_err _ _ _ he)
    rw [last?_snoc]
    generalize runW1 r h = w at *
    cases s with
    | text t => simp only [Step.act, W.writeText]; split <;> exact ⟨i1, i2, i3, by first | rfl | exact i4⟩
    | ns n =>
      simp only [Step.act, W.writeNs] at he ⊢
      split at he
      · simp at he
      · rename_i hn
        rw [if_neg hn]
        split
        · exact ⟨rfl, by show n ≤ 32767; omega, fun _ => rfl, rfl⟩
        · rename_i hw
          have hw : w.ns = n := not_not.mp hw
          exact ⟨hw, i2, i3, i4⟩
    | nt n => simp only [Step.act, W.writeNt]; split <;> exact ⟨i1, i2, by first | exact i3 | exact fun _ => rfl, i4⟩
    | inc x =>
      simp only [Step.act, W.writeInc] at he ⊢
      split
      · exact ⟨i1, i2, i3, i4⟩
      · split <;> exact ⟨i1, i2, i3, by first | rfl | exact i4⟩
    | write f => exact ⟨i1, i2, i3, i4⟩
    | list f => exact ⟨i1, i2, i3, i4⟩

theorem run_inc (r : Nat) (h : List Step) (he : (runW1 r h).err = false) :
    (runW1 r h).inc = (last? Step.inc? h).getD 0 := by
  induction h using List.reverseRecOn with
  | nil => rfl
  | append_singleton h s ih =>
    rw [runW1_snoc] at he ⊢
    have i1 := ih (act_err _ _ _ he)
    rw [last?_snoc]
    generalize runW1 r h = w at *
    cases s with
    | text t => simp only [Step.act, W.writeText]; split <;> exact i1
    | ns n =>
      simp only [Step.act, W.writeNs]
      split
      · exact i1
      · split <;> exact i1
    | nt n => simp only [Step.act, W.writeNt]; split <;> exact i1
    | inc x =>
      simp only [Step.act, W.writeInc] at he ⊢
      split at he
      · simp at he
      · rename_i hn
        rw [if_neg hn]
        split
        · rfl
        · rename_i hw
          exact not_not.mp hw
    | write f => exact i1
    | list f => exact i1

theorem shown_length (t : List Nat) : (shown t).length = 3200 := by
  unfold shown; simp; omega

theorem run_text (r : Nat) (h : List Step) :
    ((runW1 r h).text = [] ∨ (runW1 r h).text.length = 3200) ∧
      CharEnc.headerText (runW1 r h).text = shown ((last? Step.text? h).getD []) := by
  induction h using List.reverseRecOn with
  | nil => exact ⟨Or.inl rfl, rfl⟩
  | append_singleton h s ih =>
    rw [runW1_snoc]
    obtain ⟨i1, i2⟩ := ih
    rw [last?_snoc]
    generalize runW1 r h = w at *
    cases s with
    | text t =>
      simp only [Step.act, W.writeText]
      split
      · refine ⟨Or.inr (shown_length t), ?_⟩
        show CharEnc.headerText (shown t) = shown t
        unfold CharEnc.headerText CharEnc.textSz
        rw [shown_length]; simp
      · rename_i hw
        have hw : w.text = t := not_not.mp hw
        subst hw
        refine ⟨i1, ?_⟩
        show _ = shown w.text
        unfold CharEnc.headerText CharEnc.textSz shown
        rcases i1 with h1 | h1
        · rw [h1, List.take_nil]
        · rw [h1, List.take_of_length_le (by omega)]
    | ns n =>
      simp only [Step.act, W.writeNs]
      split
      · exact ⟨i1, i2⟩
      · split <;> exact ⟨i1, i2⟩
    | nt n => simp only [Step.act, W.writeNt]; split <;> exact ⟨i1, i2⟩
    | inc x =>
      simp only [Step.act, W.writeInc]
      split
      · exact ⟨i1, i2⟩
      · split <;> exact ⟨i1, i2⟩
    | write f => exact ⟨i1, i2⟩
    | list f => exact ⟨i1, i2⟩

theorem run_stalent (r s : Nat) (h : List Step) : (runW1 r h).stalent = (runW1 s h).stalent := by
  induction h using List.reverseRecOn with
  | nil => rfl
  | append_singleton h s' ih =>
    rw [runW1_snoc, runW1_snoc]
    generalize runW1 r h = w at *
    generalize runW1 s h = v at *
    cases s' with
    | text t => simp only [Step.act, W.writeText]; split <;> split <;> exact ih
    | ns n =>
      simp only [Step.act, W.writeNs]
      split
      · exact ih
      · split <;> split <;> exact ih
    | nt n => simp only [Step.act, W.writeNt]; split <;> split <;> rfl
    | inc x =>
      simp only [Step.act, W.writeInc]
      split
      · exact ih
      · split <;> split <;> exact ih
    | write f => rfl
    | list f => rfl

theorem Within.init {r : Nat} {h : List Step} {s : Step} {c : Nat} (hw : Within r (h ++ [s]) c) : Within r h c :=
  ⟨fun f hf => hw.start f (List.mem_append_left _ hf), fun f hf => hw.inList f (List.mem_append_left _ hf),
    fun f hf => hw.ordered f (List.mem_append_left _ hf)⟩

/-- A stretch without declarations, from a state whose count is `N`. -/
theorem run_seg (r : Nat) (w0 : W) (h : List Step) (N c : Nat) (hno : last? Step.nt? h = none)
    (h0 : w0.nt = N) (hN : N ≤ c) (hc : c < 2 ^ 64) (hw : Within r h c) :
    N ≤ (h.foldl (Step.act r) w0).nt ∧ (h.foldl (Step.act r) w0).nt ≤ c ∧
      (∀ k, WritesTrace r h k → k < (h.foldl (Step.act r) w0).nt) ∧
      ((h.foldl (Step.act r) w0).stalent = false → (h.foldl (Step.act r) w0).nt = N ∧ ∀ k, ¬ WritesTrace r h k) := by
  induction h using List.reverseRecOn with
  | nil =>
    refine ⟨by simp [h0], by simp [h0, hN], ?_, ?_⟩
    · rintro k (⟨f, hf, -⟩ | ⟨f, hf, -⟩) <;> simp at hf
    · intro _
      refine ⟨h0, ?_⟩
      rintro k (⟨f, hf, -⟩ | ⟨f, hf, -⟩) <;> simp at hf
  | append_singleton h s ih =>
    rw [last?_snoc] at hno
    have hno' : last? Step.nt? h = none := by
      revert hno; cases hq : s.nt? <;> simp
    obtain ⟨i1, i2, i3, i4⟩ := ih hno' hw.init
    rw [List.foldl_append]
    simp only [List.foldl_cons, List.foldl_nil]
    generalize h.foldl (Step.act r) w0 = w at *
    have keep : ∀ w' : W, w'.nt = w.nt → w'.stalent = w.stalent → (∀ f, s ≠ .write f) → (∀ f, s ≠ .list f) →
        N ≤ w'.nt ∧ w'.nt ≤ c ∧ (∀ k, WritesTrace r (h ++ [s]) k → k < w'.nt) ∧
        (w'.stalent = false → w'.nt = N ∧ ∀ k, ¬ WritesTrace r (h ++ [s]) k) := by
      intro w' e1 e2 n1 n2
      have hh : ∀ k, WritesTrace r (h ++ [s]) k → WritesTrace r h k := by
        rintro k (⟨f, hf, hk⟩ | ⟨f, hf, hk⟩)
        · rcases List.mem_append.mp hf with hf | hf
          · exact Or.inl ⟨f, hf, hk⟩
          · exact absurd (List.mem_singleton.mp hf).symm (n1 f)
        · rcases List.mem_append.mp hf with hf | hf
          · exact Or.inr ⟨f, hf, hk⟩
          · exact absurd (List.mem_singleton.mp hf).symm (n2 f)
      rw [e1, e2]
      exact ⟨i1, i2, fun k hk => i3 k (hh k hk), fun hst => ⟨(i4 hst).1, fun k hk => (i4 hst).2 k (hh k hk)⟩⟩
    cases s with
    | text t =>
      refine keep _ ?_ ?_ (by simp) (by simp) <;> (simp only [Step.act, W.writeText]; split <;> rfl)
    | ns n =>
      refine keep _ ?_ ?_ (by simp) (by simp) <;>
        (simp only [Step.act, W.writeNs]; split <;> first | rfl | (split <;> rfl))
    | nt n => simp [Step.nt?] at hno
    | inc x =>
      refine keep _ ?_ ?_ (by simp) (by simp) <;>
        (simp only [Step.act, W.writeInc]; split <;> first | rfl | (split <;> rfl))
    | write f =>
      have hf := hw.start f (by simp)
      show N ≤ max (add64 (f r).1 (f r).2) w.nt ∧ max (add64 (f r).1 (f r).2) w.nt ≤ c ∧
        (∀ k, _ → k < max (add64 (f r).1 (f r).2) w.nt) ∧ (true = false → _)
      rw [add64_eq (by omega)]
      refine ⟨by omega, by omega, ?_, by simp⟩
      rintro k (⟨g, hg, hk⟩ | ⟨g, hg, hk⟩)
      · rcases List.mem_append.mp hg with hg | hg
        · have := i3 k (Or.inl ⟨g, hg, hk⟩); omega
        · have hg := List.mem_singleton.mp hg
          injection hg with hg
          subst hg; omega
      · rcases List.mem_append.mp hg with hg | hg
        · have := i3 k (Or.inr ⟨g, hg, hk⟩); omega
        · simp at hg
    | list f =>
      have h1 := hw.inList f (by simp)
      have h2 := hw.ordered f (by simp)
      have hl : N ≤ (W.writeList w (f r)).nt ∧ (W.writeList w (f r)).nt ≤ c ∧ w.nt ≤ (W.writeList w (f r)).nt ∧
          ∀ k ∈ f r, k < (W.writeList w (f r)).nt := by
        unfold W.writeList
        generalize f r = l at *
        rcases List.eq_nil_or_concat l with rfl | ⟨l', o, rfl⟩
        · simp; omega
        · rw [List.concat_eq_append] at *
          have ho := h1 o (by simp)
          simp only [List.getLast?_concat]
          rw [add64_eq (by omega)]
          refine ⟨by omega, by omega, by omega, ?_⟩
          intro k hk
          rcases List.mem_append.mp hk with hk | hk
          · have := (List.pairwise_append.mp h2).2.2 k hk o (by simp)
            omega
          · have := List.mem_singleton.mp hk
            omega
      obtain ⟨l1, l2, l3, l4⟩ := hl
      refine ⟨l1, l2, ?_, fun hst => by simp [Step.act, W.writeList] at hst⟩
      show ∀ k, _ → k < (W.writeList w (f r)).nt
      rintro k (⟨g, hg, hk⟩ | ⟨g, hg, hk⟩)
      · rcases List.mem_append.mp hg with hg | hg
        · have := i3 k (Or.inl ⟨g, hg, hk⟩); omega
        · simp at hg
      · rcases List.mem_append.mp hg with hg | hg
        · have := i3 k (Or.inr ⟨g, hg, hk⟩); omega
        · have hg := List.mem_singleton.mp hg
          injection hg with hg
          subst hg
          exact l4 k hk

/-- The counts of all processes agree with the specification. -/
theorem run_nt {P : Nat} {h : List Step} {c : Nat} (hc : IsCount P h c) (hlt : c < 2 ^ 64) :
    (∀ r, r < P → (runW1 r h).nt ≤ c) ∧
      ((∀ r, r < P → (runW1 r h).stalent = false) → ∀ r, r < P → (runW1 r h).nt = c) ∧
      (0 < P → ∃ r, r < P ∧ (runW1 r h).nt = c) := by
  rcases hc with ⟨h1, h2, rfl, hno, hw⟩ | ⟨hno, hw, hmax⟩
  · have key : ∀ r, r < P → (runW1 r (h1 ++ .nt c :: h2)).nt = c := by
      intro r hr
      have e : runW1 r (h1 ++ .nt c :: h2) = h2.foldl (Step.act r) ((runW1 r h1).writeNt c) := by
        unfold runW1; rw [List.foldl_append]; rfl
      have a : ((runW1 r h1).writeNt c).nt = c ∧ ((runW1 r h1).writeNt c).stalent = false := by
        unfold W.writeNt
        split
        · exact ⟨rfl, rfl⟩
        · rename_i hw; exact ⟨not_not.mp hw, rfl⟩
      obtain ⟨b1, b2, -, -⟩ := run_seg r _ h2 c c hno a.1 (Nat.le_refl _) hlt (hw r hr)
      rw [e]; omega
    exact ⟨fun r hr => Nat.le_of_eq (key r hr), fun _ => key, fun hP => ⟨0, hP, key 0 hP⟩⟩
  · have key := fun r hr => run_seg r .new h 0 c hno rfl (Nat.zero_le _) hlt (hw r hr)
    refine ⟨fun r hr => (key r hr).2.1, ?_, ?_⟩
    · intro hst r hr
      have h1 := (key r hr).2.2.2 (hst r hr)
      rcases hmax with rfl | ⟨s, hs, hk⟩
      · exact h1.1
      · exact absurd hk (((key s hs).2.2.2 (hst s hs)).2 _)
    · intro hP
      rcases hmax with rfl | ⟨s, hs, hk⟩
      · exact ⟨0, hP, Nat.le_antisymm (key 0 hP).2.1 (Nat.zero_le _)⟩
      · refine ⟨s, hs, Nat.le_antisymm (key s hs).2.1 ?_⟩
        have := (key s hs).2.2.1 _ hk
        show c ≤ (runW1 s h).nt
        have e : (runW1 s h).nt = (h.foldl (Step.act s) .new).nt := rfl
        omega

theorem agree_const {α : Type} [DecidableEq α] {l : List α} {a : α} (hne : l ≠ []) (h : ∀ x ∈ l, x = a) :
    agree l = .ok a := by
  cases l with
  | nil => exact absurd rfl hne
  | cons b l =>
    have hb := h b (by simp)
    subst hb
    have : (l.all (· = b)) = true := by
      rw [List.all_eq_true]
      intro x hx
      simpa using h x (List.mem_cons_of_mem _ hx)
    unfold agree
    simp only [this, if_true]

theorem foldl_max_le (l : List Nat) : ∀ a c, a ≤ c → (∀ x ∈ l, x ≤ c) → l.foldl max a ≤ c := by
  induction l with
  | nil => intro a c h _; exact h
  | cons x l ih =>
    intro a c h hl
    exact ih _ _ (Nat.max_le.mpr ⟨h, hl x (by simp)⟩) (fun y hy => hl y (List.mem_cons_of_mem _ hy))

theorem le_foldl_max (l : List Nat) : ∀ a, a ≤ l.foldl max a ∧ ∀ x ∈ l, x ≤ l.foldl max a := by
  induction l with
  | nil => intro a; exact ⟨Nat.le_refl _, by simp⟩
  | cons y l ih =>
    intro a
    obtain ⟨h1, h2⟩ := ih (max a y)
    simp only [List.foldl_cons]
    refine ⟨by omega, ?_⟩
    intro x hx
    rcases List.mem_cons.mp hx with rfl | hx
    · omega
    · exact h2 x hx

/-! ## The header -/

theorem isDouble_eighths {n : ℤ} (h : |n| < 2 ^ 53) : IsDouble ((n : ℚ) / 8) :=
  ⟨n, -3, h, by norm_num, by rw [zpow_neg]; norm_num; ring⟩

theorem micro_bounds : (1 : ℚ) / 10 ^ 6 * (1 - 1 / 2 ^ 53) ≤ micro ∧ micro ≤ 1 / 10 ^ 6 * (1 + 1 / 2 ^ 53) := by
  have h : (2 : ℚ) ^ (-1022 : ℤ) ≤ |(1 : ℚ) / 10 ^ 6| := by
    rw [abs_of_pos (by norm_num)]
    calc (2 : ℚ) ^ (-1022 : ℤ) ≤ 2 ^ (-20 : ℤ) := zpow_le_zpow_right₀ (by norm_num) (by norm_num)
      _ ≤ _ := by rw [zpow_neg]; norm_num
  have := rnd_err h
  rw [abs_of_pos (by norm_num : (0 : ℚ) < 1 / 10 ^ 6), abs_le] at this
  unfold micro
  constructor <;> linarith [this.1, this.2]

theorem micro_pos : 0 < micro := lt_of_lt_of_le (by norm_num) micro_bounds.1

/-- The stored number of microseconds. -/
theorem stored_inc {x : ℚ} {m : ℤ} (h0 : 0 ≤ m) (h1 : m ≤ 32767) (hx : |x * 10 ^ 6 - m| ≤ 1 / 4) :
    lround (rnd (x / micro)) = m := by
  obtain ⟨b1, b2⟩ := micro_bounds
  have hp := micro_pos
  have hm0 : (0 : ℚ) ≤ m := by exact_mod_cast h0
  have hm1 : (m : ℚ) ≤ 32767 := by exact_mod_cast h1
  rw [abs_le] at hx
  have lo : ((8 * m - 3 : ℤ) : ℚ) / 8 ≤ x / micro := by
    rw [le_div_iff₀ hp]
    push_cast
    by_cases hs : (8 * (m : ℚ) - 3) / 8 ≤ 0
    · by_cases hz : m = 0
      · subst hz
        push_cast at *
        nlinarith
      · have : (1 : ℚ) ≤ m := by exact_mod_cast (by omega : 1 ≤ m)
        linarith
    · have : (8 * (m : ℚ) - 3) / 8 * micro ≤ (8 * (m : ℚ) - 3) / 8 * (1 / 10 ^ 6 * (1 + 1 / 2 ^ 53)) :=
        mul_le_mul_of_nonneg_left b2 (by linarith)
      refine le_trans this ?_
      nlinarith
  have hi : x / micro ≤ ((8 * m + 3 : ℤ) : ℚ) / 8 := by
    rw [div_le_iff₀ hp]
    push_cast
    have : (8 * (m : ℚ) + 3) / 8 * (1 / 10 ^ 6 * (1 - 1 / 2 ^ 53)) ≤ (8 * (m : ℚ) + 3) / 8 * micro :=
      mul_le_mul_of_nonneg_left b1 (by linarith)
    refine le_trans ?_ this
    nlinarith
  have r1 := rnd_ge (isDouble_eighths (n := 8 * m - 3) (by rw [abs_lt]; constructor <;> omega)) lo
  have r2 := rnd_le (isDouble_eighths (n := 8 * m + 3) (by rw [abs_lt]; constructor <;> omega)) hi
  push_cast at r1 r2
  apply lround_eq
  rw [abs_lt]
  constructor <;> linarith

theorem writes2 (b : Arr Byte) (p : Nat) (v : BitVec 16) (hl : b.len = 3600) (hp : p + 2 ≤ 3600) :
    ∃ b', b.writes p (toBESigned 2 v) = .ok b' ∧ b'.len = 3600 ∧
      (∀ x, x ≠ p → x ≠ p + 1 → b'.val x = b.val x) ∧ fromBE16 (b'.val p) (b'.val (p + 1)) = v := by
  obtain ⟨b0, b1, h1, h2⟩ := C03_roundtrip16 v
  obtain ⟨b', e1, e2, e3, e4⟩ := Arr.writes_spec (toBESigned 2 v) b p (by rw [h1, hl]; exact hp) (by rw [hl]; norm_num)
  rw [h1] at e3 e4
  refine ⟨b', e1, by rw [e2, hl], ?_, ?_⟩
  · intro x h1 h2
    apply e3
    simp; omega
  · have := e4 0 (by simp)
    have h1 := e4 1 (by simp)
    simp only [Nat.add_zero, List.getElem_cons_zero] at this
    simp only [List.getElem_cons_succ, List.getElem_cons_zero] at h1
    rw [this, h1, h2]

/-- The header as built. -/
theorem header_spec (w : W) (m : ℤ) (ht : w.text = [] ∨ w.text.length = 3200)
    (hm : lround (rnd (w.inc / micro)) = m) (h0 : -2 ^ 63 ≤ m) (h1 : m < 2 ^ 63) :
    ∃ b, w.header = .ok b ∧ b.len = 3600 ∧
      (∀ i, i < 3200 → b.val i = BitVec.ofNat 8 ((CharEnc.headerText w.text)[i]?.getD 0)) ∧
      fromBE16 (b.val 3220) (b.val 3221) = BitVec.ofNat 16 w.ns ∧
      fromBE16 (b.val 3216) (b.val 3217) = BitVec.ofInt 16 m ∧
      fromBE16 (b.val 3224) (b.val 3225) = 5#16 := by
  obtain ⟨a1, e1, l1, k1, v1⟩ := Arr.writes_spec (w.text.map (BitVec.ofNat 8)) (Arr.fill getHOSz 0#8) 0
    (by rw [List.length_map]; show 0 + w.text.length ≤ 3600; rcases ht with h | h <;> simp [h])
    (by show (3600 : Nat) ≤ 2 ^ 64; norm_num)
  have l1 : a1.len = 3600 := l1
  obtain ⟨a2, e2, l2, k2, v2⟩ := writes2 a1 3220 (BitVec.ofNat 16 w.ns) l1 (by norm_num)
  obtain ⟨a3, e3, l3, k3, v3⟩ := writes2 a2 3224 5#16 l2 (by norm_num)
  obtain ⟨a4, e4, l4, k4, v4⟩ := writes2 a3 3216 (BitVec.ofInt 16 m) l3 (by norm_num)
  obtain ⟨a5, e5, l5, k5, -⟩ := writes2 a4 3254 0x0001#16 l4 (by norm_num)
  obtain ⟨a6, e6, l6, k6, -⟩ := writes2 a5 3500 0x0100#16 l5 (by norm_num)
  obtain ⟨a7, e7, l7, k7, -⟩ := writes2 a6 3502 0x0001#16 l6 (by norm_num)
  obtain ⟨a8, e8, l8, k8, -⟩ := writes2 a7 3504 0x0000#16 l7 (by norm_num)
  have hlong : lroundLong (rnd (w.inc / micro)) = .ok m := by
    unfold lroundLong
    rw [hm, if_pos ⟨h0, h1⟩]
  refine ⟨a8, ?_, l8, ?_, ?_, ?_, ?_⟩
  · unfold W.header
    rw [e1, Res.ok_bind, e2, Res.ok_bind, e3, Res.ok_bind, hlong, Res.ok_bind, e4, Res.ok_bind, e5, Res.ok_bind,
      e6, Res.ok_bind, e7, Res.ok_bind, e8]
  · intro i hi
    rw [k8 i (by omega) (by omega), k7 i (by omega) (by omega), k6 i (by omega) (by omega),
      k5 i (by omega) (by omega), k4 i (by omega) (by omega), k3 i (by omega) (by omega), k2 i (by omega) (by omega)]
    by_cases hlt : i < w.text.length
    · have := v1 i (by simpa using hlt)
      rw [Nat.zero_add] at this
      rw [this]
      unfold CharEnc.headerText
      rw [List.getElem?_append_left hlt, List.getElem?_eq_getElem hlt]
      simp
    · rw [k1 i (by simp; omega)]
      unfold CharEnc.headerText
      rw [List.getElem?_append_right (by omega)]
      show (0#8 : Byte) = _
      rw [List.getElem?_replicate]
      split <;> simp
  · rw [k8 _ (by norm_num) (by norm_num), k7 _ (by norm_num) (by norm_num), k6 _ (by norm_num) (by norm_num),
      k5 _ (by norm_num) (by norm_num), k4 _ (by norm_num) (by norm_num), k3 _ (by norm_num) (by norm_num),
      k8 3221 (by norm_num) (by norm_num), k7 3221 (by norm_num) (by norm_num), k6 3221 (by norm_num) (by norm_num),
      k5 3221 (by norm_num) (by norm_num), k4 3221 (by norm_num) (by norm_num), k3 3221 (by norm_num) (by norm_num)]
    exact v2
  · rw [k8 _ (by norm_num) (by norm_num), k7 _ (by norm_num) (by norm_num), k6 _ (by norm_num) (by norm_num),
      k5 _ (by norm_num) (by norm_num),
      k8 3217 (by norm_num) (by norm_num), k7 3217 (by norm_num) (by norm_num), k6 3217 (by norm_num) (by norm_num),
      k5 3217 (by norm_num) (by norm_num)]
    exact v4
  · rw [k8 _ (by norm_num) (by norm_num), k7 _ (by norm_num) (by norm_num), k6 _ (by norm_num) (by norm_num),
      k5 _ (by norm_num) (by norm_num), k4 _ (by norm_num) (by norm_num),
      k8 3225 (by norm_num) (by norm_num), k7 3225 (by norm_num) (by norm_num), k6 3225 (by norm_num) (by norm_num),
      k5 3225 (by norm_num) (by norm_num), k4 3225 (by norm_num) (by norm_num)]
    exact v3

/-- Writing the header and nothing else. -/
theorem send_header (d : Disk) (b : Arr Byte) (hb : b.len = 3600) (hd : 3600 ≤ d.size) :
    ∃ d', send d b [.contig 0 getHOSz] = .ok d' ∧ d'.size = d.size ∧ (∀ x, x < 3600 → d'.byte x = b.val x) ∧
      ∀ x, 3600 ≤ x → d'.byte x = d.byte x := by
  have hm : ∀ m : Nat × Nat, m ∈ [DataIO.Op.contig 0 getHOSz].flatMap DataIO.Op.wanted ↔ ∃ j, j < 3600 ∧ m = (j, j) := by
    intro m
    simp only [List.flatMap_cons, List.flatMap_nil, List.append_nil, DataIO.Op.wanted, List.mem_map, List.mem_range]
    constructor
    · rintro ⟨j, hj, rfl⟩; exact ⟨j, hj, by rw [Nat.zero_add]⟩
    · rintro ⟨j, hj, rfl⟩; exact ⟨j, hj, by rw [Nat.zero_add]⟩
  obtain ⟨d', e1, e2, e3, e4, e5, e6⟩ := put_spec b ([DataIO.Op.contig 0 getHOSz].flatMap DataIO.Op.wanted) d
    (by intro m h; obtain ⟨j, hj, rfl⟩ := (hm m).mp h; rw [hb]; exact hj)
    (by
      intro m h m' h' he
      obtain ⟨j, hj, rfl⟩ := (hm m).mp h
      obtain ⟨j', hj', rfl⟩ := (hm m').mp h'
      exact he)
  refine ⟨d', ?_, ?_, ?_, ?_⟩
  · unfold send; rw [if_pos (show [DataIO.Op.contig 0 getHOSz].all (legal true) = true from rfl)]; exact e1
  · rcases e6 with h | ⟨m, h, h'⟩
    · exact h
    · obtain ⟨j, hj, rfl⟩ := (hm m).mp h
      simp only at h'
      omega
  · intro x hx
    exact e2 (x, x) ((hm _).mpr ⟨x, hx, rfl⟩)
  · intro x hx
    apply e3
    intro m h
    obtain ⟨j, hj, rfl⟩ := (hm m).mp h
    simp only; omega

theorem field16_ok {b : Arr Byte} {p : Nat} (h : p + 1 < b.len) :
    field16 b p = .ok (fromBE16 (b.val p) (b.val (p + 1))) := by
  unfold field16
  rw [Arr.get_ok (by omega), Res.ok_bind, Arr.get_ok h, Res.ok_bind]

/-- What a reader makes of a file of at least a header. -/
theorem openRead_spec (d : Disk) (n c : Nat) (m : ℤ) (t : List Nat) (hn : n ≤ 32767)
    (hsz : d.size = plainSz c n) (hlt : plainSz c n < 2 ^ 63)
    (hns : fromBE16 (d.byte 3220) (d.byte 3221) = BitVec.ofNat 16 n)
    (hiv : fromBE16 (d.byte 3216) (d.byte 3217) = BitVec.ofInt 16 m)
    (ht : t.length = 3200) (hc : ∀ x ∈ t, x < 256)
    (htx : ∀ i, i < 3200 → d.byte i = BitVec.ofNat 8 (t[i]?.getD 0)) :
    ∃ ty, openRead d = .ok ⟨n, c, rnd (micro * (BitVec.ofInt 16 m).toInt), ty, CharEnc.readText t⟩ ∧
      ty = fromBE16 (d.byte 3224) (d.byte 3225) := by
  have hge : 3600 ≤ d.size := by rw [hsz]; unfold plainSz; omega
  have hm : ∀ q : Nat × Nat, q ∈ [DataIO.Op.contig 0 getHOSz].flatMap DataIO.Op.wanted ↔ ∃ j, j < 3600 ∧ q = (j, j) := by
    intro q
    simp only [List.flatMap_cons, List.flatMap_nil, List.append_nil, DataIO.Op.wanted, List.mem_map, List.mem_range]
    constructor
    · rintro ⟨j, hj, rfl⟩; exact ⟨j, hj, by rw [Nat.zero_add]⟩
    · rintro ⟨j, hj, rfl⟩; exact ⟨j, hj, by rw [Nat.zero_add]⟩
  obtain ⟨b, e1, e2, e3, -⟩ := fetch_spec d ([DataIO.Op.contig 0 getHOSz].flatMap DataIO.Op.wanted) (.fill getHOSz 0#8)
    (by intro q h; obtain ⟨j, hj, rfl⟩ := (hm q).mp h; exact hj)
    (by
      intro q h q' h' he
      obtain ⟨j, hj, rfl⟩ := (hm q).mp h
      obtain ⟨j', hj', rfl⟩ := (hm q').mp h'
      exact he)
    (by intro q h; obtain ⟨j, hj, rfl⟩ := (hm q).mp h; simp only; omega)
  have e2 : b.len = 3600 := e2
  have hv : ∀ x, x < 3600 → b.val x = d.byte x := fun x hx => e3 (x, x) ((hm _).mpr ⟨x, hx, rfl⟩)
  have hr : recv d (.fill getHOSz 0#8) [.contig 0 getHOSz] = .ok b := by 
    unfold recv; rw [if_pos (show [DataIO.Op.contig 0 getHOSz].all (legal false) = true from rfl)]; exact e1
  have hnn : ((BitVec.ofNat 16 n).signExtend 64).toNat = n := by
    rw [BitVec.signExtend_eq_setWidth_of_msb_false]
    · rw [BitVec.toNat_setWidth, BitVec.toNat_ofNat]; omega
    · rw [BitVec.msb_eq_decide, BitVec.toNat_ofNat]; simp; omega
  have hnt : getNt (plainSz c n) n = .ok c := by
    unfold getNt
    rw [getDOSz_eq (by omega), if_neg (by omega)]
    unfold getHOSz
    rw [sub64_eq (by omega) (by omega)]
    unfold plainSz
    rw [Nat.add_sub_cancel_left, Nat.mul_div_cancel _ (by omega)]
  have htt : (List.range CharEnc.textSz).map (fun i => (b.val i).toNat) = t := by
    apply List.ext_getElem
    · simp [CharEnc.textSz, ht]
    · intro i h1 h2
      simp only [List.length_map, List.length_range, CharEnc.textSz] at h1
      simp only [List.getElem_map, List.getElem_range]
      rw [hv i (by omega), htx i h1, List.getElem?_eq_getElem h2, BitVec.toNat_ofNat]
      have := hc t[i] (List.getElem_mem h2)
      simp only [Option.getD_some]
      omega
  refine ⟨_, ?_, rfl⟩
  unfold openRead
  rw [if_pos (show getHOSz ≤ d.size from hge), hr, Res.ok_bind, field16_ok (by rw [e2]; norm_num), Res.ok_bind,
    hv _ (by norm_num), hv _ (by norm_num), hns]
  simp only [hnn]
  rw [hsz, hnt, Res.ok_bind, field16_ok (by rw [e2]; norm_num), Res.ok_bind, field16_ok (by rw [e2]; norm_num),
    Res.ok_bind, hv _ (by norm_num), hv _ (by norm_num), hiv, hv _ (by norm_num), hv _ (by norm_num), htt]

/-! ## The property -/

/-- Closing after a history without errors, for any stored number `m` of microseconds: the header keeps `m` modulo
`2^16`. -/
theorem close_stored (P : Nat) (hP : 0 < P) (h : List Step) (d : Disk) (n c : Nat) (m : ℤ)
    (herr : ∀ r, r < P → (runW1 r h).err = false)
    (hns : last? Step.ns? h = some n) (hn : n ≠ 0) (hcount : IsCount P h c) (hsz : plainSz c n < 2 ^ 63)
    (h0 : -2 ^ 63 ≤ m) (h1 : m < 2 ^ 63) (hinc : lround (rnd ((last? Step.inc? h).getD 0 / micro)) = m)
    (hchr : ∀ x ∈ (last? Step.text? h).getD [], x < 256) :
    ∃ d', close (runAllW P h) d = .ok d' ∧ d'.size = plainSz c n ∧ (∀ x, 3600 ≤ x → d'.byte x = d.byte x) ∧
      openRead d' = .ok ⟨n, c, rnd (micro * (BitVec.ofInt 16 m).toInt), 5#16, CharEnc.readText (shown ((last? Step.text? h).getD []))⟩ := by
  have hclt : c < 2 ^ 64 := by
    have : c * 1 ≤ c * (240 + 4 * n) := Nat.mul_le_mul_left _ (by omega)
    unfold plainSz at hsz; omega
  obtain ⟨q1, q2, q3⟩ := run_nt hcount hclt
  have hrun : ∀ r, r < P → (runW1 r h).ns = n ∧ n ≤ 32767 ∧ (runW1 r h).resize = true ∧ (runW1 r h).writeHO = true := by
    intro r hr
    obtain ⟨a1, a2, a3, a4⟩ := run_ns r h (herr r hr)
    rw [hns] at a1
    have a1' : (runW1 r h).ns = n := a1
    exact ⟨a1', a1' ▸ a2, a3 (by rw [a1']; exact hn), a4⟩
  have hne : ∀ {α : Type} (f : W → α), (runAllW P h).map f ≠ [] := by
    intro α f hc
    have := congrArg List.length hc
    simp [runAllW] at this; omega
  have hall : ∀ {α : Type} (f : W → α) (a : α), (∀ r, r < P → f (runW1 r h) = a) → ∀ x ∈ (runAllW P h).map f, x = a := by
    intro α f a ha x hx
    simp only [runAllW, List.map_map, List.mem_map, List.mem_range] at hx
    obtain ⟨r, hr, rfl⟩ := hx
    exact ha r hr
  -- after `calcNt` all processes agree
  have hcalc : ∃ ws : List W, calcNt (runAllW P h) = .ok ws ∧ ws ≠ [] ∧
      (∀ w ∈ ws, w.nt = c ∧ w.ns = n ∧ w.resize = true ∧ w.writeHO = true) ∧
      ∃ w tl, ws = w :: tl ∧ w.text = (runW1 0 h).text ∧ w.inc = (runW1 0 h).inc ∧ w.ns = n := by
    obtain ⟨tl, htl⟩ : ∃ tl, runAllW P h = runW1 0 h :: tl := by
      unfold runAllW
      obtain ⟨P', rfl⟩ : ∃ P', P = P' + 1 := ⟨P - 1, by omega⟩
      rw [List.range_succ_eq_map]; exact ⟨_, rfl⟩
    have hst : agree ((runAllW P h).map W.stalent) = .ok (runW1 0 h).stalent :=
      agree_const (hne _) (hall _ _ (fun r _ => run_stalent r 0 h))
    unfold calcNt
    rw [hst, Res.ok_bind]
    split
    · have hmax : ((runAllW P h).map W.nt).foldl max 0 = c := by
        apply Nat.le_antisymm
        · apply foldl_max_le _ _ _ (Nat.zero_le _)
          intro x hx
          simp only [runAllW, List.map_map, List.mem_map, List.mem_range] at hx
          obtain ⟨r, hr, rfl⟩ := hx
          exact q1 r hr
        · obtain ⟨r, hr, he⟩ := q3 hP
          have := (le_foldl_max ((runAllW P h).map W.nt) 0).2 c (by
            simp only [runAllW, List.map_map, List.mem_map, List.mem_range]
            exact ⟨r, hr, he⟩)
          exact this
      rw [hmax]
      refine ⟨_, rfl, hne _, ?_, ?_⟩
      · intro w hw
        simp only [runAllW, List.map_map, List.mem_map, List.mem_range] at hw
        obtain ⟨r, hr, rfl⟩ := hw
        obtain ⟨a1, a2, a3, a4⟩ := hrun r hr
        exact ⟨rfl, a1, rfl, a4⟩
      · rw [htl]
        exact ⟨_, _, rfl, rfl, rfl, (hrun 0 hP).1⟩
    · rename_i hs
      refine ⟨_, rfl, ?_, ?_, ?_⟩
      · rw [htl]; simp
      · intro w hw
        simp only [runAllW, List.mem_map, List.mem_range] at hw
        obtain ⟨r, hr, rfl⟩ := hw
        obtain ⟨a1, a2, a3, a4⟩ := hrun r hr
        refine ⟨q2 ?_ r hr, a1, a3, a4⟩
        intro s _
        rw [run_stalent s 0 h]
        simpa using hs
      · rw [htl]
        exact ⟨_, _, rfl, rfl, rfl, (hrun 0 hP).1⟩
  obtain ⟨ws, hcalc, hwne, hws, w, tl, rfl, wt, wi, wn⟩ := hcalc
  have hwall : ∀ {α : Type} (f : W → α) (a : α), (∀ v ∈ w :: tl, f v = a) → ∀ x ∈ (w :: tl).map f, x = a := by
    intro α f a ha x hx
    obtain ⟨v, hv, rfl⟩ := List.mem_map.mp hx
    exact ha v hv
  have hwmap : ∀ {α : Type} (f : W → α), (w :: tl).map f ≠ [] := by intro α f; simp
  have hcs : closeSize (w :: tl) d = .ok { d with size := plainSz c n } := by
    unfold closeSize
    rw [agree_const (hwmap _) (hwall _ true (fun v hv => (hws v hv).2.2.1)), Res.ok_bind, if_pos rfl]
    unfold setFileSz
    rw [agree_const (hwmap _) (hwall _ (plainSz c n) (fun v hv => by
      obtain ⟨a1, a2, -, -⟩ := hws v hv
      rw [a1, a2]; exact getFileSz_eq (by omega))), Res.ok_bind, if_pos hsz]
  have hw0 := run_text 0 h
  have hi0 := run_inc 0 h (herr 0 hP)
  obtain ⟨b, e1, e2, e3, e4, e5, e6⟩ := header_spec w m (by rw [wt]; exact hw0.1)
    (by rw [wi, hi0]; exact hinc) h0 h1
  obtain ⟨d', s1, s2, s3, s4⟩ := send_header { d with size := plainSz c n } b e2 (by
    show 3600 ≤ plainSz c n; unfold plainSz; omega)
  refine ⟨d', ?_, s2, s4, ?_⟩
  · unfold close
    rw [agree_const (hne _) (hall _ false herr), Res.ok_bind, if_neg (by simp), hcalc, Res.ok_bind, hcs, Res.ok_bind]
    unfold closeHeader
    rw [agree_const (hwmap _) (hwall _ true (fun v hv => (hws v hv).2.2.2)), Res.ok_bind, if_pos rfl]
    simp only
    rw [e1, Res.ok_bind, s1]
  · obtain ⟨ty, o1, o2⟩ := openRead_spec d' n c m (shown ((last? Step.text? h).getD [])) (hrun 0 hP).2.1 s2 hsz
      (by rw [s3 _ (by norm_num), s3 _ (by norm_num), e4, wn])
      (by rw [s3 _ (by norm_num), s3 _ (by norm_num), e5])
      (shown_length _)
      (by
        intro x hx
        unfold shown at hx
        rcases List.mem_append.mp hx with hx | hx
        · exact hchr x (List.mem_of_mem_take hx)
        · rw [List.eq_of_mem_replicate hx]; norm_num)
      (by
        intro i hi
        rw [s3 i (by omega), e3 i hi, wt, hw0.2])
    rw [o1, o2, s3 _ (by norm_num), s3 _ (by norm_num), e6]

/-- **C21** (part).  `P` processes make any history of calls which records no
error, the number of samples set last is not zero, and the increment set last
is within a quarter of `m` microseconds.  Closing succeeds on all processes, the
file has the size of the right number of traces, the traces are untouched, and
a reader finds the samples, traces, increment and text that were set last.
Missing from the full statement, and false of the code: histories in which a
call without traces names a place beyond the last trace, or traces are written
beyond the declared count, or with zero samples per trace (`C21_..._refuted`). -/
theorem C21_close_partial (P : Nat) (hP : 0 < P) (h : List Step) (d : Disk) (n c : Nat) (m : ℤ)
    (herr : ∀ r, r < P → (runW1 r h).err = false)
    (hns : last? Step.ns? h = some n) (hn : n ≠ 0) (hcount : IsCount P h c) (hsz : plainSz c n < 2 ^ 63)
    (h0 : 0 ≤ m) (h1 : m ≤ 32767) (hinc : |(last? Step.inc? h).getD 0 * 10 ^ 6 - m| ≤ 1 / 4)
    (hchr : ∀ x ∈ (last? Step.text? h).getD [], x < 256) :
    ∃ d', close (runAllW P h) d = .ok d' ∧ d'.size = plainSz c n ∧ (∀ x, 3600 ≤ x → d'.byte x = d.byte x) ∧
      openRead d' = .ok ⟨n, c, rnd (micro * m), 5#16, CharEnc.readText (shown ((last? Step.text? h).getD []))⟩ := by
  have hmm : (BitVec.ofInt 16 m).toInt = m := by
    rw [BitVec.toInt_ofInt, Int.bmod_eq_of_le] <;> omega
  have := close_stored P hP h d n c m herr hns hn hcount hsz (by omega) (by omega) (stored_inc h0 h1 hinc) hchr
  rwa [hmm] at this

/-- Two processes, a title, ten samples, two milliseconds; ten traces written in
blocks and some of them again through lists. -/
def exHist : List Step :=
  [.text [72, 32, 73], .ns 10, .inc (1 / 500), .write fun r => (5 * r, 5), .list fun r => [r, r + 3]]

example : (∀ r, r < 2 → (runW1 r exHist).err = false) ∧ last? Step.ns? exHist = some 10 ∧ IsCount 2 exHist 10 ∧
    plainSz 10 10 < 2 ^ 63 ∧ |(last? Step.inc? exHist).getD 0 * 10 ^ 6 - (2000 : ℤ)| ≤ 1 / 4 ∧
    ∀ x ∈ (last? Step.text? exHist).getD [], x < 256 := by
  have hp : ¬ |(1 / 500 : ℚ)| < 2 ^ (-1022 : ℤ) := by
    rw [abs_of_pos (by norm_num), not_lt]
    calc (2 : ℚ) ^ (-1022 : ℤ) ≤ 2 ^ (-20 : ℤ) := zpow_le_zpow_right₀ (by norm_num) (by norm_num)
      _ ≤ _ := by rw [zpow_neg]; norm_num
  refine ⟨?_, rfl, Or.inr ⟨rfl, ?_, Or.inr ⟨1, by norm_num, Or.inl ⟨fun r => (5 * r, 5), by simp [exHist], by norm_num, by norm_num⟩⟩⟩,
    by unfold plainSz; norm_num, ?_, by decide⟩
  · intro r _
    simp [runW1, exHist, Step.act, W.new, W.writeText, W.writeNs, W.writeInc, W.writeTrace, W.writeList]
    norm_num [hp] at *
    rw [if_neg (not_lt.mpr hp)]
    simp
  · intro r hr
    refine ⟨?_, ?_, ?_⟩
    · intro f hf
      simp [exHist] at hf; subst hf; simp; omega
    · intro f hf k hk
      simp [exHist] at hf; subst hf; simp at hk; omega
    · intro f hf
      simp [exHist] at hf; subst hf; simp
  · show |(1 / 500 : ℚ) * 10 ^ 6 - (2000 : ℤ)| ≤ 1 / 4
    norm_num

/-- **C21**: a text of printable characters with at least one below 0x40 is what
a reader returns, padded.  (Otherwise the encoding is misjudged, `C25`.) -/
theorem C21_text_partial (t : List Nat) (ht : t.length ≤ 3200) (hp : ∀ c ∈ t, 0x20 ≤ c ∧ c ≤ 0x7E)
    (hw : ∃ c ∈ t, c < 0x40) : CharEnc.readText (shown t) = CharEnc.padded t := by
  have h1 := CharEnc.C25_ascii_partial [] t ht hp hw
  rw [CharEnc.C25_header_bytes [] t ht] at h1
  have : shown t = CharEnc.padded t := by unfold shown CharEnc.padded; rw [List.take_of_length_le ht]
  rw [this, h1]

example : (∀ c ∈ [72, 32, 73], 0x20 ≤ c ∧ c ≤ 0x7E) ∧ ∃ c ∈ [72, 32, 73], c < 0x40 := by decide

/-- One process that only declares samples and makes one call without traces. -/
def emptyAt (n k : Nat) : List Step := [.ns n, .write fun _ => (k, 0)]

/-- A header can be built whenever no increment was set. -/
theorem header_zero (w : W) (ht : w.text = []) (hi : w.inc = 0) : ∃ b, w.header = .ok b ∧ b.len = 3600 := by
  have hz : lround (rnd (w.inc / micro)) = 0 := by rw [hi, zero_div, rnd_zero]; exact_mod_cast lround_int 0
  obtain ⟨b, h1, h2, -⟩ := header_spec w 0 (Or.inl ht) hz (by norm_num) (by norm_num)
  exact ⟨b, h1, h2⟩

/-- Closing on a single process without text or increment. -/
theorem close_one (w : W) (d : Disk) (he : w.err = false) (hr : w.resize = true) (hw : w.writeHO = true)
    (ht : w.text = []) (hi : w.inc = 0) (hsz : plainSz w.nt w.ns < 2 ^ 63) :
    ∃ d', close [w] d = .ok d' ∧ d'.size = plainSz w.nt w.ns := by
  have hag : ∀ {α : Type} [DecidableEq α] (a : α), agree [a] = .ok a := by
    intro α _ a
    exact agree_const (by simp) (by simp)
  obtain ⟨v, hv, v1, v2, v3, v4, v5, v6⟩ : ∃ v : W, calcNt [w] = .ok [v] ∧ v.nt = w.nt ∧ v.ns = w.ns ∧
      v.resize = true ∧ v.writeHO = true ∧ v.text = [] ∧ v.inc = 0 := by
    unfold calcNt
    rw [List.map_cons, List.map_nil, hag, Res.ok_bind]
    split
    · refine ⟨_, rfl, ?_, rfl, rfl, hw, ht, hi⟩
      show max 0 w.nt = w.nt
      omega
    · exact ⟨w, rfl, rfl, rfl, hr, hw, ht, hi⟩
  obtain ⟨b, e1, e2⟩ := header_zero v v5 v6
  have hcs : closeSize [v] d = .ok { d with size := plainSz w.nt w.ns } := by
    unfold closeSize
    rw [List.map_cons, List.map_nil, hag, Res.ok_bind, if_pos v3]
    unfold setFileSz
    rw [List.map_cons, List.map_nil, hag, Res.ok_bind, v1, v2, getFileSz_eq (by omega), if_pos hsz]
  obtain ⟨d', s1, s2, -, -⟩ := send_header { d with size := plainSz w.nt w.ns } b e2 (by
    show 3600 ≤ plainSz w.nt w.ns; unfold plainSz; omega)
  refine ⟨d', ?_, s2⟩
  unfold close
  rw [List.map_cons, List.map_nil, hag, Res.ok_bind, he, if_neg (by simp), hv, Res.ok_bind, hcs, Res.ok_bind]
  unfold closeHeader
  rw [List.map_cons, List.map_nil, hag, Res.ok_bind, if_pos v4]
  simp only
  rw [e1, Res.ok_bind, s1]

/-- **C21** refuted: a call that writes no trace still extends the file up to the
place it names.  For every number of samples and every place. -/
theorem C21_zero_refuted (n k : Nat) (hn : n ≤ 32767) (hn0 : n ≠ 0) (hk : plainSz k n < 2 ^ 63) (d : Disk) :
    (runW1 0 (emptyAt n k)).err = false ∧ (∀ i, ¬ WritesTrace 0 (emptyAt n k) i) ∧
    ∃ d', close (runAllW 1 (emptyAt n k)) d = .ok d' ∧ d'.size = plainSz k n := by
  have hklt : k < 2 ^ 64 := by
    have : k * 1 ≤ k * (240 + 4 * n) := Nat.mul_le_mul_left _ (by omega)
    unfold plainSz at hk; omega
  have hr : runW1 0 (emptyAt n k) = ⟨n, k, true, [], 0, true, true, true, false⟩ := by
    simp only [runW1, emptyAt, List.foldl_cons, List.foldl_nil, Step.act, W.writeNs, W.new, W.writeTrace]
    rw [if_neg (by omega), if_pos (by omega)]
    simp only
    rw [add64_eq (by omega)]
    simp
  refine ⟨by rw [hr], ?_, ?_⟩
  · rintro i (⟨f, hf, h1, h2⟩ | ⟨f, hf, -⟩)
    · simp [emptyAt] at hf; subst hf; simp at h1 h2; omega
    · simp [emptyAt] at hf
  · have : runAllW 1 (emptyAt n k) = [runW1 0 (emptyAt n k)] := rfl
    rw [this, hr]
    exact close_one ⟨n, k, true, [], 0, true, true, true, false⟩ d rfl rfl rfl rfl rfl hk

/-- Nothing written, yet a file of a thousand traces. -/
example : plainSz 1000 10 < 2 ^ 63 ∧ plainSz 1000 10 ≠ plainSz 0 10 := by unfold plainSz; norm_num

/-- **C21** refuted: traces written beyond the declared count win over the
declaration. -/
theorem C21_beyond_refuted (d : Disk) :
    ∃ d', close (runAllW 1 [.ns 10, .nt 5, .write fun _ => (0, 8)]) d = .ok d' ∧ d'.size = plainSz 8 10 := by
  have hr : runW1 0 [.ns 10, .nt 5, .write fun _ => (0, 8)] = ⟨10, 8, true, [], 0, true, true, true, false⟩ := by
    simp [runW1, Step.act, W.writeNs, W.new, W.writeNt, W.writeTrace, add64]
  have : runAllW 1 [.ns 10, .nt 5, .write fun _ => (0, 8)] = [runW1 0 [.ns 10, .nt 5, .write fun _ => (0, 8)]] := rfl
  rw [this, hr]
  exact close_one ⟨10, 8, true, [], 0, true, true, true, false⟩ d rfl rfl rfl rfl rfl
    (by show plainSz 8 10 < 2 ^ 63; unfold plainSz; norm_num)

/-- **C21** refuted: with zero samples per trace, declaring the count that one
process has already reached makes the processes disagree about whether the size
has to be set; only some of them make the collective call. -/
theorem C21_mismatch_refuted (d : Disk) :
    (∀ r, r < 2 → (runW1 r [.ns 0, .write fun r => (5 * r, 5), .nt 10]).err = false) ∧
    close (runAllW 2 [.ns 0, .write fun r => (5 * r, 5), .nt 10]) d = .ub := by
  refine ⟨?_, ?_⟩
  · intro r _
    simp only [runW1, Step.act, W.writeNs, W.new, W.writeNt, W.writeTrace, List.foldl_cons, List.foldl_nil]
    simp
    split <;> rfl
  · have : runAllW 2 [.ns 0, .write fun r => (5 * r, 5), .nt 10] =
        [⟨0, 10, true, [], 0, true, false, true, false⟩, ⟨0, 10, true, [], 0, false, false, true, false⟩] := by
      simp [runAllW, List.range_succ, runW1, Step.act, W.writeNs, W.new, W.writeNt, W.writeTrace, add64]
    rw [this]
    simp [close, calcNt, closeSize, agree]

/-- **C21** refuted: of an increment of 32768 microseconds or more a reader gets the number modulo `2^16`, which is less
than was set; no error is recorded. -/
theorem C21_increment_refuted (P : Nat) (hP : 0 < P) (h : List Step) (d : Disk) (n c : Nat)
    (herr : ∀ r, r < P → (runW1 r h).err = false)
    (hns : last? Step.ns? h = some n) (hn : n ≠ 0) (hcount : IsCount P h c) (hsz : plainSz c n < 2 ^ 63)
    (hinc : 32768 / 10 ^ 6 ≤ (last? Step.inc? h).getD 0)
    (hlong : lround (rnd ((last? Step.inc? h).getD 0 / micro)) < 2 ^ 63)
    (hchr : ∀ x ∈ (last? Step.text? h).getD [], x < 256) :
    ∃ d' info, close (runAllW P h) d = .ok d' ∧ openRead d' = .ok info ∧ info.inc < (last? Step.inc? h).getD 0 := by
  generalize hx : (last? Step.inc? h).getD 0 = x at *
  have hp := micro_pos
  have h0 : 0 ≤ lround (rnd (x / micro)) := by
    have : 0 ≤ rnd (x / micro) := rnd_ge (by simpa using isDouble_int (n := 0) (by norm_num)) (div_nonneg (by linarith) hp.le)
    unfold lround
    rw [if_pos this]
    exact Int.floor_nonneg.mpr (by linarith)
  obtain ⟨d', e1, -, -, e4⟩ := close_stored P hP h d n c _ herr hns hn hcount hsz (by omega) hlong (by rw [hx]) hchr
  refine ⟨d', _, e1, e4, lt_of_le_of_lt ?_ (lt_of_lt_of_le (by norm_num : (34359 / 2 ^ 20 : ℚ) < 32768 / 10 ^ 6) hinc)⟩
  have hle : (BitVec.ofInt 16 (lround (rnd (x / micro)))).toInt ≤ 32767 := by
    have := BitVec.toInt_lt (x := BitVec.ofInt 16 (lround (rnd (x / micro))))
    omega
  have hle' : ((BitVec.ofInt 16 (lround (rnd (x / micro)))).toInt : ℚ) ≤ 32767 := by exact_mod_cast hle
  have hd : IsDouble (34359 / 2 ^ 20 : ℚ) := ⟨34359, -20, by norm_num, by norm_num, by norm_num [zpow_neg]⟩
  refine rnd_le hd (le_trans (mul_le_mul_of_nonneg_left hle' hp.le) ?_)
  obtain ⟨-, b2⟩ := micro_bounds
  have : micro * 32767 ≤ 1 / 10 ^ 6 * (1 + 1 / 2 ^ 53) * 32767 := mul_le_mul_of_nonneg_right b2 (by norm_num)
  refine this.trans ?_
  norm_num

/-- A tenth of a second. -/
example : (32768 / 10 ^ 6 : ℚ) ≤ 1 / 10 := by norm_num

/-- No header can be built from an increment whose number of microseconds does not fit in a `long`. -/
theorem header_ub (w : W) (ht : w.text = []) (hm : ¬ (-2 ^ 63 ≤ lround (rnd (w.inc / micro)) ∧ lround (rnd (w.inc / micro)) < 2 ^ 63)) :
    w.header = .ub := by
  obtain ⟨a1, e1, l1, -, -⟩ := Arr.writes_spec (w.text.map (BitVec.ofNat 8)) (Arr.fill getHOSz 0#8) 0
    (by rw [List.length_map, ht]; show 0 + 0 ≤ 3600; omega)
    (by show (3600 : Nat) ≤ 2 ^ 64; norm_num)
  have l1 : a1.len = 3600 := l1
  obtain ⟨a2, e2, l2, -, -⟩ := writes2 a1 3220 (BitVec.ofNat 16 w.ns) l1 (by norm_num)
  obtain ⟨a3, e3, l3, -, -⟩ := writes2 a2 3224 5#16 l2 (by norm_num)
  have hlong : lroundLong (rnd (w.inc / micro)) = .ub := by
    unfold lroundLong
    rw [if_neg hm]
  unfold W.header
  rw [e1, Res.ok_bind, e2, Res.ok_bind, e3, Res.ok_bind, hlong, Res.ub_bind]

/-- **C21** refuted: if the number of microseconds does not fit in a `long`, closing is undefined behaviour, although
the increment was accepted. -/
theorem C21_huge_refuted (n : Nat) (hn : n ≤ 32767) (hn0 : n ≠ 0) (x : ℚ) (hx : 2 ^ (-1022 : ℤ) ≤ |x|) (d : Disk)
    (hm : lround (rnd (x / micro)) < -2 ^ 63 ∨ 2 ^ 63 ≤ lround (rnd (x / micro))) :
    (runW1 0 [.ns n, .inc x]).err = false ∧ close (runAllW 1 [.ns n, .inc x]) d = .ub := by
  have hx0 : x ≠ 0 := by
    rintro rfl
    rw [abs_zero] at hx
    exact absurd hx (not_le.2 (zpow_pos (by norm_num) _))
  obtain ⟨w, hr, h1, h2, h3, h4, h5⟩ : ∃ w : W, runW1 0 [.ns n, .inc x] = w ∧ w.err = false ∧ w.text = [] ∧ w.inc = x ∧
      w.writeHO = true ∧ w.stalent = false := by
    refine ⟨_, rfl, ?_⟩
    simp only [runW1, List.foldl_cons, List.foldl_nil, Step.act, W.writeNs, W.new, W.writeInc]
    have h1 : ¬ n > 32767 := by omega
    have h2 : (0 : Nat) ≠ n := fun h => hn0 h.symm
    have h3 : (0 : ℚ) ≠ x := fun h => hx0 h.symm
    have h4 : ¬ |x| < 2 ^ (-1022 : ℤ) := not_lt.2 hx
    simp only [h1, h2, h3, h4, if_false, if_true, ne_eq, not_false_eq_true, and_self]
  refine ⟨by rw [hr]; exact h1, ?_⟩
  have hag : ∀ {α : Type} [DecidableEq α] (a : α), agree [a] = .ok a := by
    intro α _ a
    exact agree_const (by simp) (by simp)
  have hall : runAllW 1 [.ns n, .inc x] = [w] := by rw [← hr]; rfl
  have hcs : ∃ d', closeSize [w] d = .ok d' := by
    unfold closeSize setFileSz
    simp only [List.map_cons, List.map_nil, hag, Res.ok_bind]
    split
    · split
      · exact ⟨_, rfl⟩
      · exact ⟨_, rfl⟩
    · exact ⟨_, rfl⟩
  obtain ⟨d', hcs⟩ := hcs
  rw [hall]
  unfold close
  rw [List.map_cons, List.map_nil, hag, Res.ok_bind, h1, if_neg (by simp)]
  unfold calcNt
  rw [List.map_cons, List.map_nil, hag, Res.ok_bind, h5, if_neg (by simp), Res.ok_bind, hcs, Res.ok_bind]
  unfold closeHeader
  rw [List.map_cons, List.map_nil, hag, Res.ok_bind, h4, if_pos rfl]
  simp only
  rw [header_ub w h2 (by rw [h3]; omega), Res.ub_bind]

/-- `2^63` microseconds, the least number that does not fit. -/
example : 2 ^ 63 ≤ lround (rnd (2 ^ 63 * micro / micro)) := by
  have hp := micro_pos
  rw [mul_div_assoc, div_self hp.ne', mul_one]
  have hd : IsDouble (2 ^ 63 : ℚ) := ⟨1, 63, by norm_num, by norm_num, by norm_num⟩
  rw [rnd_double hd]
  have := lround_int (2 ^ 63)
  norm_num at this ⊢
  rw [this]

/-- **C21** refuted: a writer opened on an existing file and closed again
leaves the old size, although no trace was declared or written. -/
theorem C21_untouched_refuted (d : Disk) (hd : 3600 ≤ d.size) :
    ∃ d', close (runAllW 1 []) d = .ok d' ∧ d'.size = d.size := by
  obtain ⟨b, e1, e2⟩ := header_zero W.new rfl rfl
  obtain ⟨d', s1, s2, -, -⟩ := send_header d b e2 hd
  refine ⟨d', ?_, s2⟩
  have : runAllW 1 [] = [W.new] := rfl
  rw [this]
  have hag : ∀ {α : Type} [DecidableEq α] (a : α), agree [a] = .ok a := by
    intro α _ a
    exact agree_const (by simp) (by simp)
  have h1 : calcNt [W.new] = .ok [W.new] := by
    unfold calcNt
    rw [List.map_cons, List.map_nil, hag, Res.ok_bind, if_neg (by simp [W.new])]
  have h2 : closeSize [W.new] d = .ok d := by
    unfold closeSize
    rw [List.map_cons, List.map_nil, hag, Res.ok_bind, if_neg (by simp [W.new])]
  unfold close
  rw [List.map_cons, List.map_nil, hag, Res.ok_bind, if_neg (by simp [W.new]), h1, Res.ok_bind, h2, Res.ok_bind]
  unfold closeHeader
  rw [List.map_cons, List.map_nil, hag, Res.ok_bind, if_pos (by simp [W.new])]
  simp only
  rw [e1, Res.ok_bind, s1]

/-! ## C50 -/

theorem micro_eq : micro = 4722366482869645 * 2 ^ (-72 : ℤ) := by
  have := rnd_eval (x := 1 / 10 ^ 6) 4722366482869645 (-20) (by norm_num)
    (by rw [abs_of_pos (by norm_num), zpow_neg]; norm_num) (by rw [abs_of_pos (by norm_num)]; norm_num)
    (by norm_num [abs_lt])
  unfold micro
  rw [this]; norm_num

/-- What a reader computes for `k` microseconds is within two units of the last
place. -/
theorem read_inc_near (k : ℤ) (h0 : 1 ≤ k) :
    |rnd (micro * k) - k / 10 ^ 6| ≤ (k : ℚ) / 10 ^ 6 / 2 ^ 51 := by
  obtain ⟨b1, b2⟩ := micro_bounds
  have hp := micro_pos
  have hk : (1 : ℚ) ≤ k := by exact_mod_cast h0
  have hx : (0 : ℚ) < micro * k := mul_pos hp (by linarith)
  have h : (2 : ℚ) ^ (-1022 : ℤ) ≤ |micro * k| := by
    rw [abs_of_pos hx]
    calc (2 : ℚ) ^ (-1022 : ℤ) ≤ 2 ^ (-21 : ℤ) := zpow_le_zpow_right₀ (by norm_num) (by norm_num)
      _ ≤ 1 / 10 ^ 6 * (1 - 1 / 2 ^ 53) := by rw [zpow_neg]; norm_num
      _ ≤ micro := b1
      _ ≤ micro * k := by nlinarith
  have he := rnd_err h
  rw [abs_of_pos hx, abs_le] at he
  rw [abs_le]
  have c1 : micro * k ≤ 1 / 10 ^ 6 * (1 + 1 / 2 ^ 53) * k := mul_le_mul_of_nonneg_right b2 (by linarith)
  have c2 : 1 / 10 ^ 6 * (1 - 1 / 2 ^ 53) * k ≤ micro * k := mul_le_mul_of_nonneg_right b1 (by linarith)
  constructor <;> linarith [he.1, he.2]

/-- **C50** (part).  Any histories, on any files, whose last increment is the
double nearest to `k` microseconds, or again what a reader returned for such a
file: the header holds `k`, a reader returns one and the same double for all of
them, within two units of the last place of `k` microseconds.  Missing from the
full statement: that this double is the one nearest to `k` microseconds, which
fails for some `k` (`C50_nearest_refuted`). -/
theorem C50_roundtrip_partial (k : ℤ) (h0 : 1 ≤ k) (h1 : k ≤ 32767) :
    ∃ v : ℚ, |v - k / 10 ^ 6| ≤ (k : ℚ) / 10 ^ 6 / 2 ^ 51 ∧
      ∀ (P : Nat) (h : List Step) (d : Disk) (n c : Nat), 0 < P → (∀ r, r < P → (runW1 r h).err = false) →
        last? Step.ns? h = some n → n ≠ 0 → IsCount P h c → plainSz c n < 2 ^ 63 →
        (∀ x ∈ (last? Step.text? h).getD [], x < 256) →
        (last? Step.inc? h = some (rnd (k / 10 ^ 6)) ∨ last? Step.inc? h = some v) →
        ∃ d' info, close (runAllW P h) d = .ok d' ∧ openRead d' = .ok info ∧ info.inc = v := by
  have hn := read_inc_near k h0
  have hk0 : (1 : ℚ) ≤ k := by exact_mod_cast h0
  have hk1 : (k : ℚ) ≤ 32767 := by exact_mod_cast h1
  refine ⟨rnd (micro * k), hn, ?_⟩
  intro P h d n c hP herr hns hn0 hc hsz ht hinc
  have hq : |(last? Step.inc? h).getD 0 * 10 ^ 6 - k| ≤ 1 / 4 := by
    rcases hinc with hi | hi <;> rw [hi, Option.getD_some]
    · have h : (2 : ℚ) ^ (-1022 : ℤ) ≤ |(k : ℚ) / 10 ^ 6| := by
        rw [abs_of_pos (by positivity)]
        calc (2 : ℚ) ^ (-1022 : ℤ) ≤ 2 ^ (-21 : ℤ) := zpow_le_zpow_right₀ (by norm_num) (by norm_num)
          _ ≤ 1 / 10 ^ 6 := by rw [zpow_neg]; norm_num
          _ ≤ _ := by linarith
      have he := rnd_err h
      rw [abs_of_pos (by positivity : (0 : ℚ) < k / 10 ^ 6), abs_le] at he
      rw [abs_le]
      constructor <;> linarith [he.1, he.2]
    · rw [abs_le] at hn ⊢
      constructor <;> linarith [hn.1, hn.2]
  obtain ⟨d', e1, -, -, e4⟩ := C21_close_partial P hP h d n c k herr hns hn0 hc hsz (by omega) h1 hq ht
  exact ⟨d', _, e1, e4, rfl⟩

/-- **C50** refuted as equality of doubles: five microseconds come back as a
different double. -/
theorem C50_nearest_refuted : rnd (micro * (5 : ℤ)) ≠ rnd ((5 : ℤ) / 10 ^ 6) := by
  have a : rnd (micro * (5 : ℤ)) = (5902958103587056 : ℤ) * 2 ^ (-18 - 52 : ℤ) := by
    apply rnd_eval _ _ (by norm_num)
    · rw [micro_eq, abs_of_pos (by positivity)]; norm_num
    · rw [micro_eq, abs_of_pos (by positivity)]; norm_num
    · rw [micro_eq]; norm_num [abs_lt]
  have b : rnd ((5 : ℤ) / 10 ^ 6) = (5902958103587057 : ℤ) * 2 ^ (-18 - 52 : ℤ) := by
    apply rnd_eval _ _ (by norm_num)
    · rw [abs_of_pos (by norm_num)]; norm_num
    · rw [abs_of_pos (by norm_num)]; norm_num
    · norm_num [abs_lt]
  rw [a, b]
  norm_num

end Verif.Files
