import Verif.Flow.Gather
import Verif.Decomp.Lemmas
import Mathlib.Data.List.Nodup
import Mathlib.Data.List.Perm.Basic

/-!
C35 (gathers are dealt out once each) and C36 (gathers found are the runs of the file).
-/

namespace Verif.Flow

open Verif.Decomp

/-! ## C35 -/

theorem turn_lt {P G t r : Nat} (hP : 0 < P) (hr : r < P) : t < sz G P r ↔ t * P + r < G := by
  unfold sz
  have h1 := Nat.div_add_mod G P
  have h2 := Nat.mod_lt G hP
  have h3 : ∀ a b, a < b → a * P + P ≤ b * P := by
    intro a b h
    have := Nat.mul_le_mul_right P (show a + 1 ≤ b from h)
    rwa [Nat.add_mul, Nat.one_mul] at this
  rw [Nat.mul_comm] at h1
  constructor
  · intro h
    split at h
    · rcases Nat.lt_or_ge t (G / P) with h4 | h4
      · have := h3 _ _ h4; omega
      · have : t = G / P := by omega
        rw [this]; omega
    · rw [Nat.add_zero] at h
      have := h3 _ _ h; omega
  · intro h
    rcases Nat.lt_or_ge t (G / P) with h4 | h4
    · omega
    · rcases Nat.eq_or_lt_of_le h4 with h5 | h5
      · rw [← h5] at h
        rw [if_pos (by omega)]; omega
      · have := h3 _ _ h5; omega

/-- The gathers of process `r`, without wrap-around. -/
def deals (P G r : Nat) : List Nat := (List.range (sz G P r)).map fun i => i * P + r

theorem gNums_eq {P G k r : Nat} (hP : 0 < P) (hr : r < P) (hG : G < 2 ^ 64) :
    gNums P G k r = .ok (List.replicate k (deals P G r)).flatten := by
  unfold gNums
  rw [blockDecomposition_eq hP hr hG, Res.ok_bind]
  simp only
  have : (List.range (sz G P r)).map (fun i => add64 (mul64 i P) r) = deals P G r := by
    apply List.map_congr_left
    intro i hi
    have := (turn_lt (G := G) hP hr).1 (List.mem_range.1 hi)
    rw [mul64_eq (by omega), add64_eq (by omega)]
  rw [this]

theorem deals_get {P G t r : Nat} (hP : 0 < P) (hr : r < P) :
    (deals P G r)[t]? = if t * P + r < G then some (t * P + r) else none := by
  unfold deals
  rw [List.getElem?_map]
  split
  · rename_i h
    rw [List.getElem?_range ((turn_lt hP hr).2 h)]
    rfl
  · rename_i h
    rw [List.getElem?_eq_none (by rw [List.length_range]; exact Nat.le_of_not_lt fun h' => h ((turn_lt hP hr).1 h'))]
    rfl

theorem turn_eq {P t r : Nat} (hP : 0 < P) (hr : r < P) (sizes : List Nat) :
    turn sizes (deals P sizes.length) t r = sizes.getD (t * P + r) 0 := by
  unfold turn
  rw [deals_get hP hr]
  split
  · rename_i g h
    split at h
    · injection h with h; rw [h]
    · cases h
  · rename_i h
    split at h
    · cases h
    · rename_i h1
      rw [List.getD_eq_getElem?_getD, List.getElem?_eq_none (by omega)]
      rfl

/-- The traces before gather `g`. -/
def before (sizes : List Nat) (g : Nat) : Nat := (sizes.take g).sum

theorem before_succ (sizes : List Nat) (g : Nat) : before sizes (g + 1) = before sizes g + sizes.getD g 0 := by
  unfold before
  rcases Nat.lt_or_ge g sizes.length with h | h
  · rw [List.take_add_one, List.sum_append, List.getElem?_eq_getElem h, List.getD_eq_getElem?_getD,
      List.getElem?_eq_getElem h]
    simp
  · rw [List.take_of_length_le h, List.take_of_length_le (by omega), List.getD_eq_getElem?_getD,
      List.getElem?_eq_none h]
    rfl

theorem before_le (sizes : List Nat) (g : Nat) : before sizes g ≤ sizes.sum := by
  unfold before
  conv => rhs; rw [← List.take_append_drop g sizes, List.sum_append]
  omega

theorem before_mono (sizes : List Nat) (a n : Nat) : before sizes a ≤ before sizes (a + n) := by
  induction n with
  | zero => exact Nat.le_refl _
  | succ n ih => rw [← Nat.add_assoc, before_succ]; omega

theorem sum_from (sizes : List Nat) (a n : Nat) :
    before sizes a + ((List.range n).map fun q => sizes.getD (a + q) 0).sum = before sizes (a + n) := by
  induction n with
  | zero => simp
  | succ n ih =>
    rw [List.range_succ, List.map_append, List.sum_append, ← Nat.add_assoc, ih, ← Nat.add_assoc, before_succ]
    simp

theorem sum_turns {P t n : Nat} (hP : 0 < P) (hn : n ≤ P) (sizes : List Nat) :
    ((List.range n).map fun q => turn sizes (deals P sizes.length) t q).sum
      = before sizes (t * P + n) - before sizes (t * P) := by
  have h : (List.range n).map (fun q => turn sizes (deals P sizes.length) t q)
      = (List.range n).map fun q => sizes.getD (t * P + q) 0 := by
    apply List.map_congr_left
    intro q hq
    have := List.mem_range.1 hq
    exact turn_eq hP (by omega) sizes
  rw [h, ← sum_from sizes (t * P) n]
  omega

theorem base_eq {P : Nat} (hP : 0 < P) (sizes : List Nat) (hS : sizes.sum < 2 ^ 64) (t : Nat) :
    (List.range t).foldl (fun s u => add64 s (roundSum P sizes (deals P sizes.length) u)) 0 = before sizes (t * P) := by
  induction t with
  | zero => simp [before]
  | succ t ih =>
    rw [List.range_succ, List.foldl_append, ih]
    simp only [List.foldl_cons, List.foldl_nil]
    unfold roundSum
    have h1 := before_le sizes (t * P + P)
    have h2 := before_mono sizes (t * P) P
    rw [sum_turns hP (Nat.le_refl P), Nat.mod_eq_of_lt (by omega), add64_eq (by omega), Nat.add_mul, Nat.one_mul]
    omega

theorem pieces_eq {P r : Nat} (hP : 0 < P) (hr : r < P) (sizes : List Nat) (hS : sizes.sum < 2 ^ 64) :
    pieces P sizes (deals P sizes.length) r
      = (deals P sizes.length r).map fun g => ⟨g, before sizes g, sizes.getD g 0⟩ := by
  apply List.ext_getElem?
  intro t
  unfold pieces
  rw [List.getElem?_map, List.getElem?_zipIdx, List.getElem?_map, deals_get hP hr]
  split
  · simp only [Option.map_some, Nat.zero_add]
    have h1 := before_le sizes (t * P + r)
    have h2 := before_mono sizes (t * P) r
    rw [base_eq hP sizes hS, sum_turns hP (Nat.le_of_lt hr), Nat.mod_eq_of_lt (by omega), add64_eq (by omega)]
    congr 2
    omega
  · rfl

/-- Every gather is dealt to exactly one process. -/
theorem deals_perm {P : Nat} (hP : 0 < P) (G : Nat) : ((List.range P).flatMap (deals P G)).Perm (List.range G) := by
  refine (List.perm_ext_iff_of_nodup ?_ List.nodup_range).2 ?_
  · rw [List.nodup_flatMap]
    refine ⟨?_, ?_⟩
    · intro r hr
      unfold deals
      refine List.Nodup.map_on ?_ List.nodup_range
      intro a _ b _ h
      exact Nat.eq_of_mul_eq_mul_right hP (by omega)
    · have hlt : (List.range P).Pairwise fun a b => a < b ∧ b < P :=
        List.Pairwise.imp_of_mem (fun _ hb h => ⟨h, List.mem_range.1 hb⟩) List.pairwise_lt_range
      refine hlt.imp ?_
      rintro a b ⟨hab, hb⟩ x hx hx'
      unfold deals at hx hx'
      obtain ⟨i, _, rfl⟩ := List.mem_map.1 hx
      obtain ⟨j, _, hj⟩ := List.mem_map.1 hx'
      have h1 : (j * P + b) % P = b := by rw [Nat.mul_comm, Nat.mul_add_mod, Nat.mod_eq_of_lt hb]
      have h2 : (i * P + a) % P = a := by rw [Nat.mul_comm, Nat.mul_add_mod, Nat.mod_eq_of_lt (by omega)]
      rw [hj, h2] at h1
      omega
  · intro g
    rw [List.mem_range, List.mem_flatMap]
    constructor
    · rintro ⟨r, hr, hg⟩
      unfold deals at hg
      obtain ⟨i, hi, rfl⟩ := List.mem_map.1 hg
      exact (turn_lt hP (List.mem_range.1 hr)).1 (List.mem_range.1 hi)
    · intro hg
      have hr := Nat.mod_lt g hP
      have hd : g / P * P + g % P = g := by rw [Nat.mul_comm]; exact Nat.div_add_mod g P
      refine ⟨g % P, List.mem_range.2 hr, ?_⟩
      unfold deals
      exact List.mem_map.2 ⟨g / P, List.mem_range.2 ((turn_lt hP hr).2 (by omega)), hd⟩

/-- C35, kept part: one gather operation. For any number of processes and gathers of any sizes, each gather is treated
by exactly one process; the process reads its gather's traces (reading with the sizes of the gathers in the file,
writing with the sizes of the treated gathers, both by this theorem): it starts where the gathers before end and has
the gather's length, so that the pieces of all processes in order of gather follow each other without gap or overlap;
and all processes take part in the same number of rounds. What is missing: several consecutive gather operations
(`C35_two_refuted`). -/
theorem C35_cover_partial (P : Nat) (hP : 0 < P) (sizes : List Nat) (hG : sizes.length < 2 ^ 64) (hS : sizes.sum < 2 ^ 64) :
    ∃ nums : Nat → List Nat, (∀ r, r < P → gNums P sizes.length 1 r = .ok (nums r)) ∧
      ((List.range P).flatMap nums).Perm (List.range sizes.length) ∧
      (∀ r, r < P → pieces P sizes nums r = (nums r).map fun g => ⟨g, (sizes.take g).sum, sizes.getD g 0⟩) ∧
      (∃ n, ∀ r, r < P → rounds P sizes.length 1 r = .ok n) := by
  refine ⟨deals P sizes.length, ?_, deals_perm hP _, fun r hr => pieces_eq hP hr sizes hS, ?_⟩
  · intro r hr
    rw [gNums_eq hP hr hG]
    simp
  · refine ⟨sz sizes.length P 0, ?_⟩
    intro r hr
    unfold rounds
    rw [blockDecomposition_eq hP hr hG, Res.ok_bind, blockDecomposition_eq hP hP hG, Res.ok_bind, gNums_eq hP hr hG,
      Res.ok_bind]
    simp only [List.replicate_one, List.flatten_cons, List.flatten_nil, List.append_nil, deals, List.length_map,
      List.length_range]
    congr 1
    unfold sz
    split <;> split <;> omega

/-- Five gathers on three processes. -/
example : ([4, 1, 3, 2, 5] : List Nat).length < 2 ^ 64 ∧ ([4, 1, 3, 2, 5] : List Nat).sum < 2 ^ 64 := by decide

example : gNums 3 5 1 1 = .ok [1, 4] ∧ pieces 3 [4, 1, 3, 2, 5] (fun r => [[0, 3], [1, 4], [2]].getD r []) 1
    = [⟨1, 4, 1⟩, ⟨4, 10, 5⟩] := by decide +kernel

/-- C35 fails for two consecutive gather operations: gathers are dealt out twice, and with a number of gathers that
is not a multiple of the number of processes the processes take part in different numbers of rounds (of collective
calls). -/
theorem C35_two_refuted :
    (¬ ∀ (P G k : Nat), 0 < P → G < 2 ^ 64 → 0 < k → ∀ nums : Nat → List Nat, (∀ r, r < P → gNums P G k r = .ok (nums r)) →
      ((List.range P).flatMap nums).Perm (List.range G)) ∧
    (¬ ∀ (P G k : Nat), 0 < P → G < 2 ^ 64 → 0 < k → ∃ n, ∀ r, r < P → rounds P G k r = .ok n) := by
  refine ⟨?_, ?_⟩
  · intro h
    have := h 1 1 2 (by decide) (by decide) (by decide) (fun _ => [0, 0]) (by
      intro r hr
      have : r = 0 := by omega
      subst this
      decide +kernel)
    have := this.length_eq
    revert this
    decide
  · intro h
    obtain ⟨n, hn⟩ := h 2 1 2 (by decide) (by decide) (by decide)
    have h0 := hn 0 (by decide)
    have h1 := hn 1 (by decide)
    have e0 : rounds 2 1 2 0 = .ok 2 := by decide +kernel
    have e1 : rounds 2 1 2 1 = .ok 1 := by decide +kernel
    rw [e0] at h0
    rw [e1] at h1
    injection h0 with h0
    injection h1 with h1
    omega

/-! ## C36 -/

variable {K : Type} [DecidableEq K]

/-- `rs` are the maximal runs of `l` in order: written out they are `l`, none is empty, neighbours differ. -/
def IsRuns (l : List K) (rs : List (GInfo K)) : Prop :=
  rs.flatMap (fun g => List.replicate g.count g.key) = l ∧ (∀ g ∈ rs, 0 < g.count) ∧ rs.IsChain fun a b => a.key ≠ b.key

/-- The runs, computed from the end. -/
def runsOf : List K → List (GInfo K)
  | [] => []
  | k :: ks =>
    match runsOf ks with
    | [] => [⟨1, k⟩]
    | g :: gs => if g.key = k then ⟨1 + g.count, k⟩ :: gs else ⟨1, k⟩ :: g :: gs

theorem runsOf_isRuns (l : List K) : IsRuns l (runsOf l) := by
  induction l with
  | nil => exact ⟨rfl, by simp [runsOf], by simp [runsOf]⟩
  | cons k ks ih =>
    obtain ⟨h1, h2, h3⟩ := ih
    unfold runsOf
    split
    · rename_i h
      rw [h] at h1
      simp only [List.flatMap_nil] at h1
      subst h1
      refine ⟨by simp, by simp, by simp⟩
    · rename_i g gs h
      rw [h] at h1 h2 h3
      have hg := h2 g (by simp)
      split
      · rename_i hk
        refine ⟨?_, ?_, ?_⟩
        · rw [← h1]
          simp only [List.flatMap_cons]
          rw [Nat.add_comm 1, List.replicate_succ, hk]
          rfl
        · intro x hx
          rcases List.mem_cons.1 hx with rfl | hx
          · simp only; omega
          · exact h2 x (by simp [hx])
        · cases gs with
          | nil => simp
          | cons g' gs =>
            rw [List.isChain_cons_cons] at h3 ⊢
            exact ⟨by simpa only [hk] using h3.1, h3.2⟩
      · rename_i hk
        refine ⟨?_, ?_, ?_⟩
        · rw [List.flatMap_cons, h1]; rfl
        · intro x hx
          rcases List.mem_cons.1 hx with rfl | hx
          · simp
          · exact h2 x hx
        · rw [List.isChain_cons_cons]
          exact ⟨fun h => hk h.symm, h3⟩

/-- Join two lists of runs. -/
def glue : List (GInfo K) → List (GInfo K) → List (GInfo K)
  | [], b => b
  | [g], [] => [g]
  | [g], h :: hs => if h.key = g.key then ⟨g.count + h.count, g.key⟩ :: hs else g :: h :: hs
  | g :: g' :: gs, b => g :: glue (g' :: gs) b

theorem glue_single (g : GInfo K) (k : K) (b : List (GInfo K)) (hk : g.key = k) :
    glue [⟨1 + g.count, k⟩] b = match glue [g] b with
      | [] => [⟨1, k⟩]
      | h :: hs => if h.key = k then ⟨1 + h.count, k⟩ :: hs else ⟨1, k⟩ :: h :: hs := by
  cases b with
  | nil => simp [glue, hk]
  | cons h hs =>
    simp only [glue]
    by_cases hh : h.key = g.key
    · rw [if_pos (by rw [hh, hk]), if_pos hh]
      simp [hk, Nat.add_assoc]
    · rw [if_neg (by rw [← hk]; exact hh), if_neg hh]
      simp [hk]

theorem runsOf_append (p q : List K) : runsOf (p ++ q) = glue (runsOf p) (runsOf q) := by
  induction p with
  | nil => rfl
  | cons k ks ih =>
    simp only [List.cons_append, runsOf]
    rw [ih]
    cases hr : runsOf ks with
    | nil =>
      simp only [glue]
      cases runsOf q with
      | nil => rfl
      | cons h hs => simp [glue]
    | cons g gs =>
      simp only
      cases gs with
      | nil =>
        by_cases hk : g.key = k
        · rw [if_pos hk]
          exact (glue_single g k (runsOf q) hk).symm
        · rw [if_neg hk]
          simp only [glue]
          cases hq : runsOf q with
          | nil => simp [glue, hk]
          | cons h hs =>
            simp only [glue]
            by_cases hh : h.key = g.key
            · simp [hh, hk]
            · simp [hh, hk]
      | cons g' gs =>
        simp only [glue]
        split
        · simp [glue]
        · simp [glue]

theorem scan_eq (n : Nat) (k : K) (ks : List K) :
    scan ⟨n, k⟩ ks = match runsOf ks with
      | [] => [⟨n, k⟩]
      | g :: gs => if g.key = k then ⟨n + g.count, k⟩ :: gs else ⟨n, k⟩ :: g :: gs := by
  induction ks generalizing n k with
  | nil => rfl
  | cons k' ks ih =>
    unfold scan runsOf
    simp only
    rw [ih (n + 1) k, ih 1 k']
    by_cases h : k' = k
    · subst h
      rw [if_pos rfl]
      cases runsOf ks with
      | nil => simp
      | cons g gs =>
        simp only
        split
        · simp [Nat.add_assoc]
        · simp
    · rw [if_neg h]
      cases runsOf ks with
      | nil => simp [h]
      | cons g gs =>
        simp only
        split
        · simp [h]
        · simp [h]

theorem localRuns_eq (p : List K) (h : p ≠ []) : localRuns p = .ok (runsOf p) := by
  cases p with
  | nil => exact absurd rfl h
  | cons k ks => simp only [localRuns, scan_eq, runsOf]

theorem runsOf_ne (p : List K) (h : p ≠ []) : runsOf p ≠ [] := by
  intro he
  have := (runsOf_isRuns p).1
  rw [he] at this
  exact h this.symm

/-- The runs of all processes joined. -/
def joined (Rs : List (List (GInfo K))) : List (GInfo K) := Rs.foldr glue []

theorem joined_runs (parts : List (List K)) : joined (parts.map runsOf) = runsOf parts.flatten := by
  induction parts with
  | nil => rfl
  | cons p parts ih =>
    rw [List.flatten_cons, runsOf_append, ← ih]
    rfl

/-- How many traces of key `k` the list of runs begins with. -/
def headCount (k : K) : List (GInfo K) → Nat
  | [] => 0
  | h :: _ => if h.key = k then h.count else 0

/-- The list without its first run if that has key `k`. -/
def without (k : K) : List (GInfo K) → List (GInfo K)
  | [] => []
  | h :: hs => if h.key = k then hs else h :: hs

theorem glue_split (l b : List (GInfo K)) (back : GInfo K) (hl : l.getLast? = some back) :
    glue l b = addLast (headCount back.key b) l ++ without back.key b := by
  induction l with
  | nil => simp at hl
  | cons g gs ih =>
    cases gs with
    | nil =>
      simp only [List.getLast?_singleton, Option.some.injEq] at hl
      subst hl
      cases b with
      | nil => simp [glue, addLast, headCount, without]
      | cons h hs =>
        simp only [glue, addLast, headCount, without]
        split <;> simp
    | cons g' gs =>
      rw [List.getLast?_cons_cons] at hl
      simp only [glue, addLast, List.cons_append, ih hl]

omit [DecidableEq K] in
theorem addLast_keys (n : Nat) (l : List (GInfo K)) : (addLast n l).map GInfo.key = l.map GInfo.key := by
  induction l with
  | nil => rfl
  | cons g gs ih =>
    cases gs with
    | nil => rfl
    | cons g' gs => simp only [addLast, List.map_cons] at ih ⊢; rw [ih]

omit [DecidableEq K] in
theorem addLast_zero (l : List (GInfo K)) : addLast 0 l = l := by
  induction l with
  | nil => rfl
  | cons g gs ih =>
    cases gs with
    | nil => rfl
    | cons g' gs => simp only [addLast]; rw [ih]

omit [DecidableEq K] in
theorem addLast_length (n : Nat) (l : List (GInfo K)) : (addLast n l).length = l.length := by
  have := congrArg List.length (addLast_keys n l)
  simpa using this

/-- If the keys of the joined runs are distinct so are those of a tail of the processes. -/
theorem glue_nodup (l b : List (GInfo K)) (hl : l ≠ []) (h : ((glue l b).map GInfo.key).Nodup) :
    (b.map GInfo.key).Nodup ∧ ∀ g ∈ l.dropLast, ∀ x ∈ b, x.key ≠ g.key := by
  obtain ⟨back, hb⟩ : ∃ back, l.getLast? = some back := by
    cases hc : l.getLast? with
    | none => simp at hc; exact absurd hc hl
    | some x => exact ⟨x, rfl⟩
  obtain ⟨init, rfl⟩ := List.getLast?_eq_some_iff.1 hb
  rw [glue_split _ b back hb, List.map_append, addLast_keys, List.map_append, List.map_cons, List.map_nil] at h
  have hkeys : ∀ x ∈ b, x.key = back.key ∨ x.key ∈ (without back.key b).map GInfo.key := by
    cases b with
    | nil => simp
    | cons y ys =>
      intro x hx
      simp only [without]
      by_cases hy : y.key = back.key
      · rcases List.mem_cons.1 hx with rfl | hx
        · exact Or.inl hy
        · rw [if_pos hy]; exact Or.inr (List.mem_map_of_mem hx)
      · rw [if_neg hy]; exact Or.inr (List.mem_map_of_mem hx)
  have h' := List.nodup_append.1 h
  refine ⟨?_, ?_⟩
  · have h2 : ([back.key] ++ (without back.key b).map GInfo.key).Nodup := by
      rw [List.append_assoc] at h
      exact (List.nodup_append.1 h).2.1
    cases b with
    | nil => simp
    | cons y ys =>
      simp only [without] at h2
      by_cases hy : y.key = back.key
      · rw [if_pos hy] at h2
        rw [List.map_cons, hy]
        exact h2
      · rw [if_neg hy] at h2
        exact (List.nodup_append.1 h2).2.1
  · intro g hg x hx he
    rw [List.dropLast_concat] at hg
    have hgk : g.key ∈ init.map GInfo.key := List.mem_map_of_mem hg
    rcases hkeys x hx with h1 | h1
    · have := (List.nodup_append.1 h'.1).2.2 g.key hgk back.key (by simp)
      exact this (by rw [← he, h1])
    · exact h'.2.2 g.key (List.mem_append_left _ hgk) x.key h1 he.symm

/-- The traces added from the processes after are the first joined run there. -/
theorem following_eq (k : K) (Rs : List (List (GInfo K))) (hne : ∀ l ∈ Rs, l ≠ [])
    (h : ((joined Rs).map GInfo.key).Nodup) : following k Rs = headCount k (joined Rs) := by
  induction Rs with
  | nil => rfl
  | cons l rest ih =>
    have hl := hne l (by simp)
    have hj : joined (l :: rest) = glue l (joined rest) := rfl
    rw [hj] at h ⊢
    obtain ⟨h1, h2⟩ := glue_nodup l (joined rest) hl h
    have ih := ih (fun x hx => hne x (by simp [hx])) h1
    cases l with
    | nil => exact absurd rfl hl
    | cons g gs =>
      simp only [following, List.head?_cons]
      cases gs with
      | nil =>
        rw [ih]
        cases hr : joined rest with
        | nil => simp [glue, headCount]
        | cons x xs =>
          simp only [glue, headCount]
          by_cases hx : x.key = g.key
          · rw [if_pos hx]
            by_cases hg : g.key = k
            · simp [hx, hg]
            · simp [hg]
          · rw [if_neg hx]
            by_cases hg : g.key = k
            · rw [if_pos hg, if_neg (by rw [← hg]; exact hx)]
              simp [hg]
            · simp [hg]
      | cons g' gs =>
        simp only [glue, headCount]
        by_cases hg : g.key = k
        · rw [if_pos hg, if_pos hg, ih]
          have : headCount k (joined rest) = 0 := by
            cases hr : joined rest with
            | nil => rfl
            | cons x xs =>
              have := h2 g (by simp [List.dropLast]) x (by rw [hr]; simp)
              simp only [headCount]
              rw [if_neg (by rw [← hg]; exact this)]
          omega
        · rw [if_neg hg, if_neg hg]

theorem without_head (g b : GInfo K) (X : List (GInfo K)) (hX : X.head?.map GInfo.key = some g.key) :
    without b.key X = X.drop (if b.key = g.key then 1 else 0) := by
  cases X with
  | nil => simp at hX
  | cons x xs =>
    simp only [List.head?_cons, Option.map_some, Option.some.injEq] at hX
    simp only [without, hX]
    by_cases h : g.key = b.key
    · rw [if_pos h, if_pos h.symm]; rfl
    · rw [if_neg h, if_neg (fun h' => h h'.symm)]; rfl

theorem contribute_eq (v : K) (prev : Option (List (GInfo K))) (l : List (GInfo K)) (rest : List (List (GInfo K)))
    (front back : GInfo K) (hf : l.head? = some front) (hb : l.getLast? = some back) (hne : ∀ x ∈ rest, x ≠ []) :
    contribute (some v) prev l rest = .ok ((addLast (following back.key rest) l).drop (startAt prev front)) := by
  unfold contribute
  rw [hf, hb]
  simp only
  generalize startAt prev front = start
  split
  · cases rest with
    | nil =>
      simp only [following, addLast_zero, ite_self]
      rw [Res.ok_bind]
    | cons x xs =>
      have hx := hne x (by simp)
      cases x with
      | nil => exact absurd rfl hx
      | cons y ys =>
        simp only [List.head?_cons, following]
        by_cases h : y.key = back.key
        · simp [h]
        · simp [h, addLast_zero]
  · rename_i hs
    rw [Res.ok_bind, List.drop_of_length_le (by omega), List.drop_of_length_le (by rw [addLast_length]; omega)]

theorem combine_eq (v : K) (Rs : List (List (GInfo K))) (hne : ∀ l ∈ Rs, l ≠ [])
    (h : ((joined Rs).map GInfo.key).Nodup) (prev : Option (List (GInfo K))) :
    combine (some v) prev Rs = .ok (match prev.bind (fun l => l.getLast?) with
      | some b => without b.key (joined Rs)
      | none => joined Rs) := by
  induction Rs generalizing prev with
  | nil =>
    unfold combine joined
    simp only [List.foldr_nil]
    split <;> simp [without]
  | cons l rest ih =>
    have hl := hne l (by simp)
    have hner : ∀ x ∈ rest, x ≠ [] := fun x hx => hne x (by simp [hx])
    have hj : joined (l :: rest) = glue l (joined rest) := rfl
    rw [hj] at h ⊢
    obtain ⟨h1, _⟩ := glue_nodup l (joined rest) hl h
    obtain ⟨back, hb⟩ : ∃ back, l.getLast? = some back := by
      cases hc : l.getLast? with
      | none => simp at hc; exact absurd hc hl
      | some x => exact ⟨x, rfl⟩
    obtain ⟨front, hf⟩ : ∃ front, l.head? = some front := by
      cases l with
      | nil => exact absurd rfl hl
      | cons x xs => exact ⟨x, rfl⟩
    unfold combine
    rw [contribute_eq v prev l rest front back hf hb hner, Res.ok_bind, ih hner h1 (some l), Res.ok_bind]
    simp only [Option.bind_some, hb]
    rw [following_eq back.key rest hner h1]
    have hg := glue_split l (joined rest) back hb
    have hlen : 0 < (addLast (headCount back.key (joined rest)) l).length := by
      rw [addLast_length]
      exact List.length_pos_iff.2 hl
    have hhead : (glue l (joined rest)).head?.map GInfo.key = some front.key := by
      rw [hg, List.head?_append_of_ne_nil _ (List.length_pos_iff.1 hlen)]
      have := congrArg List.head? (addLast_keys (headCount back.key (joined rest)) l)
      rw [List.head?_map, List.head?_map, hf] at this
      exact this
    unfold startAt
    cases hp : prev.bind (fun l => l.getLast?) with
    | none =>
      simp only [List.drop_zero]
      rw [hg]
    | some b =>
      simp only
      rw [without_head front b _ hhead, hg]
      split
      · rw [List.drop_append_of_le_length (by omega)]
      · simp

/-- Equal keys stand together: the keys of the runs are distinct. -/
theorem runs_nodup (l : List K) (h : ∀ a b, [a, b, a].Sublist l → a = b) : ((runsOf l).map GInfo.key).Nodup := by
  have hmem : ∀ l : List K, ∀ g ∈ runsOf l, g.key ∈ l := by
    intro l g hg
    obtain ⟨h1, h2, _⟩ := runsOf_isRuns l
    have h3 := h2 g hg
    have h4 : g.key ∈ (runsOf l).flatMap fun g => List.replicate g.count g.key :=
      List.mem_flatMap.2 ⟨g, hg, List.mem_replicate.2 ⟨by omega, rfl⟩⟩
    rwa [h1] at h4
  induction l with
  | nil => simp [runsOf]
  | cons k ks ih =>
    have ih := ih fun a b hs => h a b (hs.trans (List.sublist_cons_self k ks))
    cases ks with
    | nil => simp [runsOf]
    | cons k' ks =>
      have hsub := h
      unfold runsOf
      split
      · simp
      · rename_i g gs hr
        rw [hr] at ih
        split
        · rename_i hk
          rw [List.map_cons] at ih ⊢
          rw [← hk]
          exact ih
        · rename_i hk
          rw [List.map_cons, List.nodup_cons]
          refine ⟨?_, ih⟩
          intro hin
          obtain ⟨x, hx, hxk⟩ := List.mem_map.1 hin
          rw [← hr] at hx
          have hm := hmem (k' :: ks) x hx
          simp only at hxk
          rw [hxk] at hm
          have hgk : g.key = k' := by
            have h1 := (runsOf_isRuns (k' :: ks)).1
            have h2 := (runsOf_isRuns (k' :: ks)).2.1 g (by rw [hr]; simp)
            rw [hr, List.flatMap_cons] at h1
            obtain ⟨n, hn⟩ : ∃ n, g.count = n + 1 := ⟨g.count - 1, by omega⟩
            rw [hn, List.replicate_succ, List.cons_append] at h1
            exact (List.cons.inj h1).1
          rcases List.mem_cons.1 hm with h1 | h1
          · exact hk (by rw [hgk, h1])
          · have hs : [k, k', k].Sublist (k :: k' :: ks) :=
              (((List.singleton_sublist.2 h1).cons_cons k').cons_cons k)
            have := h k k' hs
            exact hk (by rw [hgk, this])

theorem fold_runs (parts : List (List K)) (hne : ∀ p ∈ parts, p ≠ []) :
    parts.foldr (fun p acc => do
      let l ← localRuns p
      let ls ← acc
      .ok (l :: ls)) (Res.ok []) = .ok (parts.map runsOf) := by
  induction parts with
  | nil => rfl
  | cons p parts ih =>
    rw [List.foldr_cons, ih fun q hq => hne q (by simp [hq]), localRuns_eq p (hne p (by simp)), Res.ok_bind, Res.ok_bind]
    rfl

/-- C36, kept part, for any distribution. If every process has a trace, traces of equal inline and crossline stand
together in the file, and the read one beyond the end of the gathered lists on the last process gives some value `v`
(it is undefined behaviour, `C36_bounds_refuted`), the result is the list of maximal runs in file order with their
lengths. What is missing: processes without traces (`C36_empty_refuted`) and keys that come back later
(`C36_again_refuted`). -/
theorem C36_runs_partial (v : K) (parts : List (List K)) (hne : ∀ p ∈ parts, p ≠ [])
    (hc : ∀ a b, [a, b, a].Sublist parts.flatten → a = b) :
    ∃ rs, getGathers (some v) parts = .ok rs ∧ IsRuns parts.flatten rs := by
  refine ⟨runsOf parts.flatten, ?_, runsOf_isRuns _⟩
  unfold getGathers
  rw [fold_runs parts hne, Res.ok_bind, combine_eq v (parts.map runsOf)]
  · simp only [Option.bind_none, joined_runs]
  · intro l hl
    obtain ⟨p, hp, rfl⟩ := List.mem_map.1 hl
    exact runsOf_ne p (hne p hp)
  · rw [joined_runs]
    exact runs_nodup _ hc

/-- Runs that go over several process boundaries. -/
example : getGathers (some 0) [[1, 1, 2], [2, 2], [2, 3], [3, 5]] = .ok [⟨2, 1⟩, ⟨4, 2⟩, ⟨2, 3⟩, ⟨1, 5⟩] := by decide +kernel

example : (∀ p ∈ [[1, 1, 2], [2, 2], [2, 3], [3, 5]], p ≠ []) := by decide

/-- The maximal runs are determined by the list. -/
theorem IsRuns.unique {l : List K} {rs rs' : List (GInfo K)} (h : IsRuns l rs) (h' : IsRuns l rs') : rs = rs' := by
  have key : ∀ l : List K, ∀ rs, IsRuns l rs → rs = runsOf l := by
    intro l rs
    obtain ⟨n, hn⟩ : ∃ n, rs.length = n := ⟨_, rfl⟩
    induction rs generalizing l n with
    | nil =>
      rintro ⟨h1, _, _⟩
      simp only [List.flatMap_nil] at h1
      subst h1
      rfl
    | cons g gs ih =>
      rintro ⟨h1, h2, h3⟩
      have htail := ih (gs.flatMap fun g => List.replicate g.count g.key) _ rfl
        ⟨rfl, fun x hx => h2 x (by simp [hx]), by
          cases gs with
          | nil => simp
          | cons y ys => exact (List.isChain_cons_cons.1 h3).2⟩
      rw [List.flatMap_cons] at h1
      have hg := h2 g (by simp)
      rw [← h1, runsOf_append, ← htail]
      have hrep : ∀ n, runsOf (List.replicate (n + 1) g.key) = [⟨n + 1, g.key⟩] := by
        intro n
        induction n with
        | zero => rfl
        | succ n ihn =>
          rw [List.replicate_succ, runsOf, ihn]
          simp [Nat.add_comm]
      obtain ⟨n, hn⟩ : ∃ n, g.count = n + 1 := ⟨g.count - 1, by omega⟩
      rw [hn, hrep n, ← hn]
      cases gs with
      | nil => rfl
      | cons y ys =>
        have := (List.isChain_cons_cons.1 h3).1
        simp only [glue]
        rw [if_neg (fun h => this h.symm)]
  rw [key l rs h, key l rs' h']

/-- C36 for a file: with at least as many traces as processes the result is the list of maximal runs of the file,
for any number of processes. -/
theorem C36_file_partial (v : K) (P : Nat) (hP : 0 < P) (file : List K) (hlen : P ≤ file.length) (h64 : file.length < 2 ^ 64)
    (hc : ∀ a b, [a, b, a].Sublist file → a = b) :
    ∃ rs, getIlXlGathers (some v) P file = .ok rs ∧ IsRuns file rs := by
  have hfold : ∀ rs : List Nat, (∀ r ∈ rs, r < P) → rs.foldr (fun r acc => do
      let dec ← blockDecomposition file.length P r
      let ls ← acc
      .ok ((file.drop dec.globalOffset).take dec.localSize :: ls)) (Res.ok [])
      = .ok (rs.map fun r => (file.drop (off file.length P r)).take (sz file.length P r)) := by
    intro rs
    induction rs with
    | nil => intro _; rfl
    | cons r rs ih =>
      intro h
      rw [List.foldr_cons, ih fun q hq => h q (by simp [hq]), blockDecomposition_eq hP (h r (by simp)) h64, Res.ok_bind,
        Res.ok_bind]
      rfl
  have hflat : ∀ m, m ≤ P → ((List.range m).map fun r => (file.drop (off file.length P r)).take (sz file.length P r)).flatten
      = file.take (off file.length P m) := by
    intro m
    induction m with
    | zero => intro _; simp [off_zero]
    | succ m ih =>
      intro hm
      rw [List.range_succ, List.map_append, List.flatten_append, ih (by omega), off_succ, List.take_add]
      simp
  have hpos : ∀ r, r < P → 0 < sz file.length P r := by
    intro r _
    unfold sz
    have : 0 < file.length / P := Nat.div_pos hlen hP
    omega
  have hall := hflat P (Nat.le_refl P)
  rw [off_last _ _ hP, List.take_length] at hall
  unfold getIlXlGathers
  rw [hfold _ (fun r hr => List.mem_range.1 hr), Res.ok_bind]
  obtain ⟨rs, h1, h2⟩ := C36_runs_partial v
    ((List.range P).map fun r => (file.drop (off file.length P r)).take (sz file.length P r)) (by
      intro p hp
      obtain ⟨r, hr, rfl⟩ := List.mem_map.1 hp
      have hr := List.mem_range.1 hr
      have := hpos r hr
      have h3 := off_le file.length P (r + 1) hP hr
      rw [off_succ] at h3
      intro he
      have := congrArg List.length he
      simp only [List.length_take, List.length_drop, List.length_nil] at this
      omega) (by rw [hall]; exact hc)
  exact ⟨rs, h1, by rw [hall] at h2; exact h2⟩

example : ∀ a b, [a, b, a].Sublist [1, 1, 2, 2, 3] → a = b := by
  intro a b h
  have h3 : [1, 1, 2, 2, 3].Pairwise (fun x y : Nat => x ≤ y) := by decide
  have := h3.sublist h
  simp only [List.pairwise_cons, List.mem_cons] at this
  have h1 := this.1 b (by simp)
  have h2 := this.2.1 a (by simp)
  omega

/-- C36 fails strictly: on the last process (and so always on a single process) a value one beyond the end of the
gathered lists is read, whenever that process has a run of its own to report. -/
theorem C36_bounds_refuted (p : List K) : getGathers none [p] = .ub := by
  unfold getGathers
  cases p with
  | nil => rfl
  | cons k ks =>
    rw [fold_runs _ (by simp), Res.ok_bind]
    have hne := runsOf_ne (k :: ks) (by simp)
    simp only [List.map_cons, List.map_nil, combine, contribute]
    cases hr : runsOf (k :: ks) with
    | nil => exact absurd hr hne
    | cons g gs =>
      cases hl : (g :: gs).getLast? with
      | none => simp at hl
      | some b => simp; rfl

/-- The runs of a list end with its last key. -/
theorem runsOf_last (l : List K) : (runsOf l).getLast?.map GInfo.key = l.getLast? := by
  obtain ⟨h1, h2, -⟩ := runsOf_isRuns l
  generalize runsOf l = rs at *
  subst h1
  rcases List.eq_nil_or_concat rs with rfl | ⟨rs, g, rfl⟩
  · rfl
  · have hg := h2 g (by simp)
    obtain ⟨n, hn⟩ : ∃ n, g.count = n + 1 := ⟨g.count - 1, by omega⟩
    simp [List.flatMap_append, hn, List.replicate_succ', List.getLast?_append]

/-- A list with one key has one run. -/
theorem runsOf_const (k : K) (n : Nat) : runsOf (List.replicate (n + 1) k) = [⟨n + 1, k⟩] := by
  induction n with
  | zero => rfl
  | succ n ih =>
    rw [List.replicate_succ, runsOf, ih]
    simp [Nat.add_comm]

/-- What lies beyond the lists does not matter as long as a process follows. -/
theorem contribute_past (v : K) (prev : Option (List (GInfo K))) (l x : List (GInfo K)) (rest : List (List (GInfo K))) :
    contribute none prev l (x :: rest) = contribute (some v) prev l (x :: rest) := rfl

theorem combine_past (v : K) (L : List (GInfo K)) (b g : GInfo K) (hb : L.getLast? = some b) (hk : b.key = g.key) :
    ∀ (Q : List (List (GInfo K))) (prev : Option (List (GInfo K))),
    combine none prev (Q ++ [L, [g]]) = combine (some v) prev (Q ++ [L, [g]]) := by
  intro Q
  induction Q with
  | nil =>
    intro prev
    have h : ∀ past, contribute past (some L) [g] [] = .ok [] := by
      intro past
      unfold contribute startAt
      simp [hb, hk]
    simp only [List.nil_append, combine, contribute_past v, h]
  | cons l Q ih =>
    intro prev
    obtain ⟨x, xs, hx⟩ : ∃ x xs, Q ++ [L, [g]] = x :: xs := by
      cases Q with
      | nil => exact ⟨_, _, rfl⟩
      | cons y ys => exact ⟨_, _, rfl⟩
    simp only [List.cons_append, combine, ih]
    rw [hx, contribute_past v]

theorem combine_ub (L R : List (GInfo K)) (front : GInfo K) (hf : R.head? = some front)
    (h : startAt (some L) front < R.length) (hL : L ≠ []) :
    ∀ (Q : List (List (GInfo K))) (prev : Option (List (GInfo K))), (∀ l ∈ Q, l ≠ []) →
    combine none prev (Q ++ [L, R]) = .ub := by
  have hR : R ≠ [] := by intro h; rw [h] at hf; cases hf
  intro Q
  induction Q with
  | nil =>
    intro prev _
    obtain ⟨fl, hfl⟩ : ∃ x, L.head? = some x := by cases L with | nil => exact absurd rfl hL | cons a _ => exact ⟨a, rfl⟩
    obtain ⟨bl, hbl⟩ : ∃ x, L.getLast? = some x := ⟨_, List.getLast?_eq_getLast_of_ne_nil hL⟩
    obtain ⟨br, hbr⟩ : ∃ x, R.getLast? = some x := ⟨_, List.getLast?_eq_getLast_of_ne_nil hR⟩
    have h2 : contribute none (some L) R [] = .ub := by
      unfold contribute
      rw [hf, hbr]
      simp only [if_pos h]
      rfl
    simp only [List.nil_append, combine]
    rw [contribute_past fl.key, contribute_eq fl.key prev L [R] fl bl hfl hbl (by simpa using hR), Res.ok_bind, h2]
    rfl
  | cons l Q ih =>
    intro prev hne
    have hl := hne l (by simp)
    obtain ⟨fl, hfl⟩ : ∃ x, l.head? = some x := by cases l with | nil => exact absurd rfl hl | cons a _ => exact ⟨a, rfl⟩
    obtain ⟨bl, hbl⟩ : ∃ x, l.getLast? = some x := ⟨_, List.getLast?_eq_getLast_of_ne_nil hl⟩
    obtain ⟨x, xs, hx⟩ : ∃ x xs, Q ++ [L, R] = x :: xs := by
      cases Q with
      | nil => exact ⟨_, _, rfl⟩
      | cons y ys => exact ⟨_, _, rfl⟩
    have hr : ∀ y ∈ Q ++ [L, R], y ≠ [] := by
      intro y hy
      rcases List.mem_append.1 hy with hy | hy
      · exact hne y (by simp [hy])
      · simp at hy
        rcases hy with rfl | rfl
        · exact hL
        · exact hR
    have h1 : ∃ a, contribute none prev l (Q ++ [L, R]) = .ok a := by
      have := contribute_eq fl.key prev l _ fl bl hfl hbl hr
      rw [hx, ← contribute_past fl.key, ← hx] at this
      exact ⟨_, this⟩
    obtain ⟨a, ha⟩ := h1
    simp only [List.cons_append, combine]
    rw [ha, Res.ok_bind, ih _ (fun y hy => hne y (by simp [hy])), Res.ub_bind]

/-- C36, kept part without any supposition about the read beyond the end: it is not made if all traces of the last
process continue the last run of the process before. -/
theorem C36_defined_partial (parts : List (List K)) (l p : List K) (hne : ∀ q ∈ parts ++ [l, p], q ≠ [])
    (hp : ∀ x ∈ p, l.getLast? = some x) (hc : ∀ a b, [a, b, a].Sublist (parts ++ [l, p]).flatten → a = b) :
    ∃ rs, getGathers none (parts ++ [l, p]) = .ok rs ∧ IsRuns (parts ++ [l, p]).flatten rs := by
  have hpn := hne p (by simp)
  obtain ⟨k, hk⟩ : ∃ k, l.getLast? = some k := by
    cases p with
    | nil => exact absurd rfl hpn
    | cons a _ => exact ⟨a, hp a (by simp)⟩
  obtain ⟨n, hrep⟩ : ∃ n, p = List.replicate (n + 1) k := by
    refine ⟨p.length - 1, List.eq_replicate_iff.2 ⟨?_, ?_⟩⟩
    · have := List.length_pos_iff.2 hpn
      omega
    · intro x hx
      have := hp x hx
      rw [hk] at this
      exact (Option.some.inj this).symm
  obtain ⟨b, hb, hbk⟩ : ∃ b, (runsOf l).getLast? = some b ∧ b.key = k := by
    have := runsOf_last l
    rw [hk] at this
    exact Option.map_eq_some_iff.1 this
  obtain ⟨rs, h1, h2⟩ := C36_runs_partial k (parts ++ [l, p]) hne hc
  refine ⟨rs, ?_, h2⟩
  rw [← h1]
  unfold getGathers
  rw [fold_runs _ hne, Res.ok_bind, Res.ok_bind]
  have : (parts ++ [l, p]).map runsOf = parts.map runsOf ++ [runsOf l, [⟨n + 1, k⟩]] := by
    rw [List.map_append, hrep]
    simp [runsOf_const]
  rw [this]
  exact combine_past k _ b ⟨n + 1, k⟩ hb hbk _ _

/-- The last of three processes has only traces of the gather before. -/
example : (∀ x ∈ [2, 2], [2].getLast? = some x) ∧
    getGathers none [[1, 1], [2], [2, 2]] = .ok [⟨2, 1⟩, ⟨3, 2⟩] := by decide +kernel

/-- C36 fails strictly on any number of processes: the value beyond the lists is read whenever the last process has a
trace of another gather than the last trace of the process before. -/
theorem C36_last_refuted (parts : List (List K)) (l p : List K) (hne : ∀ q ∈ parts ++ [l, p], q ≠ [])
    (hp : ∃ x ∈ p, l.getLast? ≠ some x) : getGathers none (parts ++ [l, p]) = .ub := by
  unfold getGathers
  rw [fold_runs _ hne, Res.ok_bind, List.map_append]
  have hpn := hne p (by simp)
  have hRn := runsOf_ne p hpn
  obtain ⟨front, hf⟩ : ∃ x, (runsOf p).head? = some x := by
    cases hr : runsOf p with
    | nil => exact absurd hr hRn
    | cons a _ => exact ⟨a, rfl⟩
  refine combine_ub (runsOf l) (runsOf p) front hf ?_ (runsOf_ne l (hne l (by simp))) _ _ ?_
  · have hpos := List.length_pos_iff.2 hRn
    unfold startAt
    have hlast := runsOf_last l
    simp only [Option.bind_some]
    split
    · rename_i b hb
      split
      · rename_i hbk
        rw [hb, Option.map_some] at hlast
        obtain ⟨x, hx, hxl⟩ := hp
        by_contra hlen
        have hone : runsOf p = [front] := by
          cases hr : runsOf p with
          | nil => exact absurd hr hRn
          | cons a t =>
            rw [hr] at hf hlen
            cases t with
            | nil => simpa using hf
            | cons _ _ => simp at hlen
        have h1 := (runsOf_isRuns p).1
        rw [hone] at h1
        simp only [List.flatMap_cons, List.flatMap_nil, List.append_nil] at h1
        rw [← h1] at hx
        have := (List.mem_replicate.1 hx).2
        exact hxl (by rw [← hlast, this, hbk])
      · exact hpos
    · exact hpos
  · intro y hy
    obtain ⟨q, hq, rfl⟩ := List.mem_map.1 hy
    exact runsOf_ne q (hne q (by simp [hq]))

example : ∃ x ∈ [2, 3], [2].getLast? ≠ some x := by decide

/-- C36 fails for a process without traces (fewer traces than processes): its first parameter is read. -/
theorem C36_empty_refuted (past : Option K) (parts : List (List K)) (h : [] ∈ parts) : getGathers past parts = .ub := by
  have : parts.foldr (fun p acc => do
      let l ← localRuns p
      let ls ← acc
      .ok (l :: ls)) (Res.ok []) = .ub := by
    induction parts with
    | nil => simp at h
    | cons p parts ih =>
      rw [List.foldr_cons]
      cases p with
      | nil => rfl
      | cons k ks =>
        have hm : [] ∈ parts := by simpa using h
        rw [ih hm]
        rfl
  unfold getGathers
  rw [this]
  rfl

example : ([] : List Nat) ∈ [[1], [], [2]] := by decide

/-- C36 fails if a key comes back at a process boundary: the traces `1 | 1 2 | 1` give a run of three. -/
theorem C36_again_refuted : ¬ ∀ (v : Nat) (parts : List (List Nat)) (rs : List (GInfo Nat)), (∀ p ∈ parts, p ≠ []) →
    getGathers (some v) parts = .ok rs → IsRuns parts.flatten rs := by
  intro h
  have h1 := h 0 [[1], [1, 2], [1]] [⟨3, 1⟩, ⟨1, 2⟩, ⟨1, 1⟩] (by decide) (by decide +kernel)
  have h2 : IsRuns ([[1], [1, 2], [1]] : List (List Nat)).flatten [⟨2, 1⟩, ⟨1, 2⟩, ⟨1, 1⟩] :=
    ⟨by decide, by decide, by decide⟩
  have := h1.unique h2
  revert this
  decide

end Verif.Flow
