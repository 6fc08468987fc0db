import Verif.Util.FourD
import Mathlib.Analysis.Real.Sqrt
import Mathlib.Tactic.NormNum
import Mathlib.Tactic.Linarith
import Mathlib.Tactic.FinCases

/-!
# C48: 4D binning finds the closest trace
-/

namespace Verif.Util

variable {K T : Type} [LinearOrder K]

/-- The coordinates are below the number that marks unused entries, even after the limit is added. -/
def Below (g : Geo K T) (c : List T) : Prop := ∀ t ∈ c, g.hi (g.xs t) < g.big

theorem lt_alloc (n : Nat) : n < allocSz n := by unfold allocSz; omega

omit [LinearOrder K] in
theorem xread_in (g : Geo K T) {c : List T} {i : Nat} {t : T} (h : c[i]? = some t) : xread g c i = .ok (g.xs t) := by
  unfold xread; rw [h]

omit [LinearOrder K] in
theorem xread_end (g : Geo K T) (c : List T) : xread g c c.length = .ok g.big := by
  unfold xread
  rw [List.getElem?_eq_none (Nat.le_refl _)]
  exact if_pos (lt_alloc _)

omit [LinearOrder K] in
theorem xread_le (g : Geo K T) {c : List T} {i : Nat} (h : i ≤ c.length) : ∃ x, xread g c i = .ok x := by
  rcases Nat.lt_or_ge i c.length with h' | h'
  · exact ⟨_, xread_in g (List.getElem?_eq_getElem h')⟩
  · have : i = c.length := by omega
    subst this; exact ⟨_, xread_end g c⟩

theorem skipUp_spec (g : Geo K T) (c : List T) (b : K) :
    ∀ n s, s + n ≤ c.length → ∃ s', skipUp g c b n s = .ok s' ∧ s ≤ s' ∧ s' ≤ s + n ∧
      ∀ k t, s ≤ k → k < s' → c[k]? = some t → g.xs t < b := by
  intro n
  induction n with
  | zero => intro s _; exact ⟨s, rfl, by omega, by omega, by intros; omega⟩
  | succ n ih =>
    intro s hs
    have hx := List.getElem?_eq_getElem (show s < c.length by omega)
    unfold skipUp
    rw [xread_in g hx, Res.ok_bind]
    split_ifs with hlt
    · obtain ⟨s', h1, h2, h3, h4⟩ := ih (s + 1) (by omega)
      refine ⟨s', h1, by omega, by omega, ?_⟩
      intro k t hk1 hk2 hk
      rcases Nat.eq_or_lt_of_le hk1 with e | e
      · subst e; rw [hx] at hk; cases hk; exact hlt
      · exact h4 k t e hk2 hk
    · exact ⟨s, rfl, by omega, by omega, by intros; omega⟩

theorem skipDown_spec (g : Geo K T) (c : List T) (b : K) (low : Nat) :
    ∀ e e', skipDown g c b low e = .ok e' → e' ≤ e ∧
      (∀ k, e' < k → k ≤ e → ∃ x, xread g c k = .ok x ∧ b < x) := by
  intro e
  induction e with
  | zero =>
    intro e' h
    unfold skipDown at h
    split_ifs at h with h0
    · obtain ⟨x, hx⟩ := xread_le g (Nat.zero_le c.length)
      rw [hx, Res.ok_bind] at h
      split_ifs at h
      cases h; exact ⟨by omega, by intros; omega⟩
    · cases h; exact ⟨by omega, by intros; omega⟩
  | succ e ih =>
    intro e' h
    unfold skipDown at h
    split_ifs at h with h0
    · cases hx : xread g c (e + 1) with
      | abort => rw [hx] at h; cases h
      | ub => rw [hx] at h; cases h
      | ok x =>
        rw [hx, Res.ok_bind] at h
        split_ifs at h with hb
        · obtain ⟨h1, h2⟩ := ih e' h
          refine ⟨by omega, ?_⟩
          intro k hk1 hk2
          rcases Nat.eq_or_lt_of_le hk2 with q | q
          · subst q; exact ⟨x, hx, hb⟩
          · exact h2 k hk1 (by omega)
        · cases h; exact ⟨by omega, by intros; omega⟩
    · cases h; exact ⟨by omega, by intros; omega⟩

/-- The first step down is always taken: behind the coordinates is the largest number. -/
theorem skipDown_lt (g : Geo K T) (c : List T) (b : K) (low : Nat) (hl : low ≤ c.length) (hb : b < g.big) {e' : Nat}
    (h : skipDown g c b low c.length = .ok e') : e' < c.length := by
  cases hc : c.length with
  | zero =>
    exfalso
    have hx := xread_end g c
    rw [hc] at h hl hx
    unfold skipDown at h
    rw [if_pos hl, hx, Res.ok_bind, if_pos hb] at h
    cases h
  | succ n =>
    have hx := xread_end g c
    rw [hc] at h hl hx
    unfold skipDown at h
    rw [if_pos hl, hx, Res.ok_bind, if_pos hb] at h
    have := (skipDown_spec g c b low n e' h).1
    omega

omit [LinearOrder K] in
theorem xreadPrev_ok (g : Geo K T) {c : List T} {n : Nat} {x : K} (hn : n ≤ c.length) (h : xreadPrev g c n = .ok x) :
    ∃ t, c[n - 1]? = some t ∧ x = g.xs t ∧ 0 < n := by
  cases n with
  | zero => cases h
  | succ n =>
    have hx := List.getElem?_eq_getElem (show n < c.length by omega)
    have h' : xread g c n = .ok x := h
    rw [xread_in g hx] at h'
    cases h'
    exact ⟨_, hx, rfl, by omega⟩

/-- What the four loops establish. -/
theorem ranges_spec (g : Geo K T) {c1 c2 : List T} (hb1 : Below g c1) (hb2 : Below g c2) {ls le rs re : Nat}
    (h : ranges g c1 c2 = .ok (ls, le, rs, re)) :
    ∃ first last x2 x2e, c1[0]? = some first ∧ c1[c1.length - 1]? = some last ∧ xread g c2 rs = .ok x2 ∧
      c2[re - 1]? = some x2e ∧ le < c1.length ∧ re < c2.length ∧ rs ≤ c2.length ∧ 0 < re ∧
      (∀ k t, k < rs → c2[k]? = some t → g.xs t < g.lo (g.xs first)) ∧
      (∀ k t, re < k → c2[k]? = some t → g.hi (g.xs last) < g.xs t) ∧
      (∀ k t, k < ls → c1[k]? = some t → g.xs t < g.lo x2) ∧
      (∀ k t, le < k → c1[k]? = some t → g.hi (g.xs x2e) < g.xs t) := by
  unfold ranges at h
  cases h1 : xread g c1 0 with
  | abort => rw [h1] at h; cases h
  | ub => rw [h1] at h; cases h
  | ok first =>
  rw [h1, Res.ok_bind] at h
  obtain ⟨rs', hr1, _, hr3, hr4⟩ := skipUp_spec g c2 (g.lo first) c2.length 0 (by omega)
  rw [hr1, Res.ok_bind] at h
  cases h2 : xreadPrev g c1 c1.length with
  | abort => rw [h2] at h; cases h
  | ub => rw [h2] at h; cases h
  | ok last =>
  rw [h2, Res.ok_bind] at h
  obtain ⟨tl, htl, rfl, hpos⟩ := xreadPrev_ok g (Nat.le_refl _) h2
  have h0 := List.getElem?_eq_getElem hpos
  rw [xread_in g h0] at h1
  cases h1
  cases h3 : skipDown g c2 (g.hi (g.xs tl)) rs' c2.length with
  | abort => rw [h3] at h; cases h
  | ub => rw [h3] at h; cases h
  | ok re' =>
  rw [h3, Res.ok_bind] at h
  have hre := skipDown_lt g c2 _ rs' (by omega) (hb1 tl (List.mem_of_getElem? htl)) h3
  obtain ⟨x2, hx2⟩ := xread_le g (show rs' ≤ c2.length by omega)
  rw [hx2, Res.ok_bind] at h
  obtain ⟨ls', hl1, _, hl3, hl4⟩ := skipUp_spec g c1 (g.lo x2) c1.length 0 (by omega)
  rw [hl1, Res.ok_bind] at h
  cases h4 : xreadPrev g c2 re' with
  | abort => rw [h4] at h; cases h
  | ub => rw [h4] at h; cases h
  | ok x2e =>
  rw [h4, Res.ok_bind] at h
  obtain ⟨te, hte, rfl, hre0⟩ := xreadPrev_ok g (by omega) h4
  cases h5 : skipDown g c1 (g.hi (g.xs te)) ls' c1.length with
  | abort => rw [h5] at h; cases h
  | ub => rw [h5] at h; cases h
  | ok le' =>
  rw [h5, Res.ok_bind] at h
  have hle := skipDown_lt g c1 _ ls' (by omega) (hb2 te (List.mem_of_getElem? hte)) h5
  cases h
  refine ⟨_, tl, x2, te, h0, htl, hx2, hte, hle, hre, by omega, hre0, ?_, ?_, ?_, ?_⟩
  · intro k t hk ht; exact hr4 k t (by omega) hk ht
  · intro k t hk ht
    have hkl := (List.getElem?_eq_some_iff.mp ht).1
    obtain ⟨x, hx, hb⟩ := (skipDown_spec g c2 _ rs _ _ h3).2 k hk (by omega)
    rw [xread_in g ht] at hx
    cases hx; exact hb
  · intro k t hk ht; exact hl4 k t (by omega) hk ht
  · intro k t hk ht
    have hkl := (List.getElem?_eq_some_iff.mp ht).1
    obtain ⟨x, hx, hb⟩ := (skipDown_spec g c1 _ ls _ _ h5).2 k hk (by omega)
    rw [xread_in g ht] at hx
    cases hx; exact hb

theorem update_get (g : Geo K T) {c1 c2 : List T} {st st' : List (Nat × K)} (h : update g c1 c2 st = .ok st') :
    ∃ ls le rs re, ranges g c1 c2 = .ok (ls, le, rs, re) ∧
      st'.length = min c1.length st.length ∧
      ∀ (i : Nat) t s, c1[i]? = some t → st[i]? = some s →
        st'[i]? = some (if ls / 32 * 32 ≤ i ∧ i < le then scan g t s ((c2.drop rs).take (re - rs)) else s) := by
  unfold update at h
  cases hr : ranges g c1 c2 with
  | abort => rw [hr] at h; cases h
  | ub => rw [hr] at h; cases h
  | ok q =>
    obtain ⟨ls, le, rs, re⟩ := q
    rw [hr, Res.ok_bind] at h
    cases h
    refine ⟨ls, le, rs, re, rfl, ?_, ?_⟩
    · rw [List.length_mapIdx, List.length_zip]
    · intro i t s ht hs
      rw [List.getElem?_mapIdx, show (c1.zip st)[i]? = some (t, s) from List.getElem?_zip_eq_some.mpr ⟨ht, hs⟩]
      rfl

theorem scan_le (g : Geo K T) (t : T) : ∀ (c : List T) (s : Nat × K), (scan g t s c).2 ≤ s.2 := by
  intro c
  induction c with
  | nil => intro s; exact le_refl _
  | cons u c ih =>
    intro s
    exact le_trans (ih _) (min_le_right _ _)

theorem scan_mem (g : Geo K T) (t : T) : ∀ (c : List T) (s : Nat × K) (u : T), u ∈ c → (scan g t s c).2 ≤ g.crit t u := by
  intro c
  induction c with
  | nil => intro s u hu; cases hu
  | cons w c ih =>
    intro s u hu
    rcases List.mem_cons.mp hu with e | e
    · subst e; exact le_trans (scan_le g t c _) (min_le_left _ _)
    · exact ih _ u e

theorem scan_from (g : Geo K T) (t : T) : ∀ (c : List T) (s : Nat × K),
    scan g t s c = s ∨ ∃ u ∈ c, scan g t s c = (g.tn u, g.crit t u) := by
  intro c
  induction c with
  | nil => intro s; left; rfl
  | cons w c ih =>
    intro s
    have hs : scan g t s (w :: c) =
        scan g t (if g.crit t w < s.2 then g.tn w else s.1, min (g.crit t w) s.2) c := rfl
    rw [hs]
    rcases ih (if g.crit t w < s.2 then g.tn w else s.1, min (g.crit t w) s.2) with e | ⟨u, hu, e⟩
    · rw [e]
      by_cases hlt : g.crit t w < s.2
      · right
        refine ⟨w, List.mem_cons_self, ?_⟩
        rw [if_pos hlt, min_eq_left (le_of_lt hlt)]
      · left
        rw [if_neg hlt, min_eq_right (not_lt.mp hlt)]
    · right; exact ⟨u, List.mem_cons_of_mem _ hu, e⟩

/-- The step for one process of the second file, in one statement about every trace. -/
theorem update_entry (g : Geo K T) {c1 c2 : List T} (hb1 : Below g c1) (hb2 : Below g c2) {st st' : List (Nat × K)}
    (hl : st.length = c1.length) (h : update g c1 c2 st = .ok st') :
    st'.length = c1.length ∧
    ∀ (i : Nat) t s, c1[i]? = some t → st[i]? = some s → ∃ s', st'[i]? = some s' ∧ s'.2 ≤ s.2 ∧
      (i + 1 = c1.length → s' = s) ∧ (s' = s ∨ ∃ u ∈ c2.dropLast, s' = (g.tn u, g.crit t u)) := by
  obtain ⟨ls, le, rs, re, hr, h1, h2⟩ := update_get g h
  obtain ⟨_, _, _, _, _, _, _, _, hle, hre, _, _, _, _, _, _⟩ := ranges_spec g hb1 hb2 hr
  refine ⟨by omega, ?_⟩
  intro i t s ht hs
  refine ⟨_, h2 i t s ht hs, ?_, ?_, ?_⟩
  · split_ifs
    · exact scan_le g t _ s
    · exact le_refl _
  · intro hi
    rw [if_neg (by omega)]
  · split_ifs
    · rcases scan_from g t ((c2.drop rs).take (re - rs)) s with e | ⟨u, hu, e⟩
      · exact Or.inl e
      · refine Or.inr ⟨u, ?_, e⟩
        obtain ⟨k, hk, hke⟩ := List.getElem_of_mem hu
        rw [List.length_take, List.length_drop] at hk
        have hk2 : c2[rs + k]? = some u := by
          have := List.getElem?_eq_getElem (l := (c2.drop rs).take (re - rs)) (i := k) (by
            rw [List.length_take, List.length_drop]; exact hk)
          rw [hke, List.getElem?_take_of_lt (by omega), List.getElem?_drop] at this
          exact this
        have hd : c2.dropLast[rs + k]? = some u := by
          rw [List.getElem?_dropLast, if_pos (by omega)]
          exact hk2
        exact List.mem_of_getElem? hd
    · exact Or.inl rfl

theorem rounds_entry (g : Geo K T) {c1 : List T} (hb1 : Below g c1) :
    ∀ (c2s : List (List T)) (st st' : List (Nat × K)), (∀ c ∈ c2s, Below g c) → st.length = c1.length → rounds g c1 c2s st = .ok st' →
    st'.length = c1.length ∧
    ∀ (i : Nat) t s, c1[i]? = some t → st[i]? = some s → ∃ s', st'[i]? = some s' ∧ s'.2 ≤ s.2 ∧
      (i + 1 = c1.length → s' = s) ∧ (s' = s ∨ ∃ c2 ∈ c2s, ∃ u ∈ c2.dropLast, s' = (g.tn u, g.crit t u)) := by
  intro c2s
  induction c2s with
  | nil =>
    intro st st' hb2 hl h
    cases h
    exact ⟨hl, fun i t s _ hs => ⟨s, hs, le_refl _, fun _ => rfl, Or.inl rfl⟩⟩
  | cons c2 rest ih =>
    intro st st' hb2 hl h
    unfold rounds at h
    cases ha : isActive g c1 c2 with
    | abort => rw [ha] at h; cases h
    | ub => rw [ha] at h; cases h
    | ok a =>
    rw [ha, Res.ok_bind] at h
    cases a with
    | false =>
      obtain ⟨h1, h2⟩ := ih st st' (fun c hc => hb2 c (List.mem_cons_of_mem _ hc)) hl h
      refine ⟨h1, fun i t s ht hs => ?_⟩
      obtain ⟨s', p1, p2, p3, p4⟩ := h2 i t s ht hs
      refine ⟨s', p1, p2, p3, ?_⟩
      rcases p4 with e | ⟨c, hc, u, hu, e⟩
      · exact Or.inl e
      · exact Or.inr ⟨c, List.mem_cons_of_mem _ hc, u, hu, e⟩
    | true =>
      simp only [↓reduceIte] at h
      cases hu : update g c1 c2 st with
      | abort => rw [hu] at h; cases h
      | ub => rw [hu] at h; cases h
      | ok st1 =>
      rw [hu, Res.ok_bind] at h
      obtain ⟨hl1, q⟩ := update_entry g hb1 (hb2 c2 List.mem_cons_self) hl hu
      obtain ⟨h1, h2⟩ := ih st1 st' (fun c hc => hb2 c (List.mem_cons_of_mem _ hc)) hl1 h
      refine ⟨h1, fun i t s ht hs => ?_⟩
      obtain ⟨s1, q1, q2, q3, q4⟩ := q i t s ht hs
      obtain ⟨s', p1, p2, p3, p4⟩ := h2 i t s1 ht q1
      refine ⟨s', p1, le_trans p2 q2, fun hi => (p3 hi).trans (q3 hi), ?_⟩
      rcases p4 with e | ⟨c, hc, u, hu, e⟩
      · subst e
        rcases q4 with e | ⟨u, hu, e⟩
        · exact Or.inl e
        · exact Or.inr ⟨c2, List.mem_cons_self, u, hu, e⟩
      · exact Or.inr ⟨c, List.mem_cons_of_mem _ hc, u, hu, e⟩

theorem calc_start (g : Geo K T) {r : Nat} {c1 : List T} {c2s : List (List T)} {st : List (Nat × K)}
    (h : calc4DBin g r c1 c2s = .ok st) :
    ∃ c2 f, c2s[r]? = some c2 ∧ c2.head? = some f ∧ rounds g c1 c2s (initUpdate g c1 f) = .ok st := by
  unfold calc4DBin at h
  cases hr : c2s[r]? with
  | none => rw [hr] at h; cases h
  | some c2 =>
    rw [hr, Option.bind_some] at h
    cases hf : c2.head? with
    | none => rw [hf] at h; cases h
    | some f => rw [hf] at h; exact ⟨c2, f, rfl, hf, h⟩

omit [LinearOrder K] in
theorem init_get (g : Geo K T) {c1 : List T} {f t : T} {i : Nat} (ht : c1[i]? = some t) :
    (initUpdate g c1 f)[i]? = some (g.tn f, g.crit t f) := by
  unfold initUpdate; rw [List.getElem?_map, ht]; rfl

/-- C48 (proved part, soundness): whenever the search returns, every entry names a trace that the second file really has,
with its criterion, and the criterion is at most that of the first trace of the second file on the same process. -/
theorem C48_sound_partial (g : Geo K T) (r : Nat) (c1 : List T)
    (c2s : List (List T)) (st : List (Nat × K)) (hb1 : Below g c1) (hb2 : ∀ c ∈ c2s, Below g c) (h : calc4DBin g r c1 c2s = .ok st) :
    st.length = c1.length ∧ ∀ (i : Nat) t, c1[i]? = some t →
      ∃ u ∈ c2s.flatten, st[i]? = some (g.tn u, g.crit t u) ∧
        ∀ c2 f, c2s[r]? = some c2 → c2.head? = some f → g.crit t u ≤ g.crit t f := by
  obtain ⟨c2, f, hr, hf, hs⟩ := calc_start g h
  obtain ⟨h1, h2⟩ := rounds_entry g hb1 c2s _ st hb2 (by unfold initUpdate; rw [List.length_map]) hs
  refine ⟨h1, fun i t ht => ?_⟩
  obtain ⟨s', p1, p2, _, p4⟩ := h2 i t _ ht (init_get g ht)
  have key : ∀ c2' f', c2s[r]? = some c2' → c2'.head? = some f' → f' = f := by
    intro c2' f' e1 e2
    rw [hr] at e1; cases e1; rw [hf] at e2; cases e2; rfl
  rcases p4 with e | ⟨c, hc, u, hu, e⟩
  · subst e
    refine ⟨f, List.mem_flatten.mpr ⟨c2, List.mem_of_getElem? hr, List.mem_of_head? hf⟩, p1, ?_⟩
    intro c2' f' e1 e2; rw [key c2' f' e1 e2]
  · subst e
    refine ⟨u, List.mem_flatten.mpr ⟨c, hc, List.dropLast_subset _ hu⟩, p1, ?_⟩
    intro c2' f' e1 e2; rw [key c2' f' e1 e2]; exact p2

/-- C48 (proved part): every pair handed to the output is a pair of traces of the two files within the limit. -/
theorem C48_matched_partial (g : Geo K T) (r : Nat) (c1 : List T)
    (c2s : List (List T)) (st : List (Nat × K)) (hb1 : Below g c1) (hb2 : ∀ c ∈ c2s, Below g c) (h : calc4DBin g r c1 c2s = .ok st) (a b : Nat) (v : K)
    (hm : (a, b, v) ∈ matched g c1 st) :
    ∃ t ∈ c1, ∃ u ∈ c2s.flatten, a = g.tn t ∧ b = g.tn u ∧ v = g.crit t u ∧ g.crit t u ≤ g.dmax := by
  obtain ⟨_, h2⟩ := C48_sound_partial g r c1 c2s st hb1 hb2 h
  unfold matched at hm
  rw [List.mem_filterMap] at hm
  obtain ⟨⟨t, s⟩, hp, he⟩ := hm
  split_ifs at he with hd
  obtain ⟨i, hi⟩ := List.getElem?_of_mem hp
  obtain ⟨e1, e2⟩ := List.getElem?_zip_eq_some.mp hi
  obtain ⟨u, hu, e3, _⟩ := h2 i t e1
  have e4 : s = (g.tn u, g.crit t u) := Option.some.inj (e2.symm.trans e3)
  simp only [e4, Option.some.injEq, Prod.mk.injEq] at he hd
  exact ⟨t, List.mem_of_getElem? e1, u, hu, he.1.symm, he.2.1.symm, he.2.2.symm, hd⟩

/-- C48 is refuted for the last trace of every process: whatever the second file holds, its partner is the first trace of
the second file on the same process. -/
theorem C48_last_refuted (g : Geo K T) (r : Nat) (c1 : List T) (t : T)
    (c2s : List (List T)) (st : List (Nat × K)) (hb1 : Below g (c1 ++ [t])) (hb2 : ∀ c ∈ c2s, Below g c) (h : calc4DBin g r (c1 ++ [t]) c2s = .ok st)
    (f : T) (c2 : List T) (hr : c2s[r]? = some (f :: c2)) :
    st[c1.length]? = some (g.tn f, g.crit t f) := by
  obtain ⟨c2', f', hr', hf', hs⟩ := calc_start g h
  rw [hr] at hr'; cases hr'; cases hf'
  obtain ⟨_, h2⟩ := rounds_entry g hb1 c2s _ st hb2 (by unfold initUpdate; rw [List.length_map]) hs
  have ht : (c1 ++ [t])[c1.length]? = some t := by
    rw [List.getElem?_append_right (Nat.le_refl _), Nat.sub_self]; rfl
  obtain ⟨s', p1, _, p3, _⟩ := h2 _ t _ ht (init_get g ht)
  rw [p1, p3 (by rw [List.length_append]; rfl)]

/-- C48 is refuted for the last trace of the second file on every process: apart from the first local trace only traces
which are not the last one of their process are ever chosen. -/
theorem C48_ignored_refuted (g : Geo K T) (r : Nat) (c1 : List T)
    (c2s : List (List T)) (st : List (Nat × K)) (hb1 : Below g c1) (hb2 : ∀ c ∈ c2s, Below g c) (h : calc4DBin g r c1 c2s = .ok st)
    (f : T) (c2 : List T) (hr : c2s[r]? = some (f :: c2)) (i : Nat) (t : T) (ht : c1[i]? = some t) :
    ∃ u, (u = f ∨ ∃ c ∈ c2s, u ∈ c.dropLast) ∧ st[i]? = some (g.tn u, g.crit t u) := by
  obtain ⟨c2', f', hr', hf', hs⟩ := calc_start g h
  rw [hr] at hr'; cases hr'; cases hf'
  obtain ⟨_, h2⟩ := rounds_entry g hb1 c2s _ st hb2 (by unfold initUpdate; rw [List.length_map]) hs
  obtain ⟨s', p1, _, _, p4⟩ := h2 _ t _ ht (init_get g ht)
  rcases p4 with e | ⟨c, hc, u, hu, e⟩
  · subst e; exact ⟨f, Or.inl rfl, p1⟩
  · subst e; exact ⟨u, Or.inr ⟨c, hc, hu⟩, p1⟩

/-- C48 is refuted when only the first trace of a process of the second file is below the upper bound, in particular
when a process has one trace of the second file: the search reads in front of the array. -/
theorem C48_first_refuted (g : Geo K T) (c1 : List T) (first last : T) (u : T) (c2 : List T)
    (h1 : c1[0]? = some first) (h2 : c1[c1.length - 1]? = some last)
    (hlo : g.lo (g.xs first) ≤ g.xs u) (hhi : g.xs u ≤ g.hi (g.xs last))
    (hbig : g.hi (g.xs last) < g.big) (hrest : ∀ w ∈ c2, g.hi (g.xs last) < g.xs w) (st : List (Nat × K)) :
    update g c1 (u :: c2) st = .ub := by
  have hpos : 0 < c1.length := (List.getElem?_eq_some_iff.mp h1).1
  have hup : skipUp g (u :: c2) (g.lo (g.xs first)) (u :: c2).length 0 = .ok 0 := by
    rw [List.length_cons]
    unfold skipUp
    rw [xread_in g (show (u :: c2)[0]? = some u from rfl), Res.ok_bind, if_neg (not_lt.mpr hlo)]
  have hprev : xreadPrev g c1 c1.length = .ok (g.xs last) := by
    obtain ⟨n, hn⟩ : ∃ n, c1.length = n + 1 := ⟨c1.length - 1, by omega⟩
    rw [hn] at h2 ⊢
    exact xread_in g h2
  have hdown : ∀ e, e ≤ (u :: c2).length → skipDown g (u :: c2) (g.hi (g.xs last)) 0 e = .ok 0 := by
    intro e
    induction e with
    | zero =>
      intro _
      unfold skipDown
      rw [if_pos (Nat.le_refl 0), xread_in g (show (u :: c2)[0]? = some u from rfl), Res.ok_bind,
        if_neg (not_lt.mpr hhi)]
    | succ e ih =>
      intro he
      unfold skipDown
      rw [if_pos (Nat.zero_le _)]
      rcases Nat.lt_or_ge (e + 1) (u :: c2).length with hlt | hge
      · have hx := List.getElem?_eq_getElem hlt
        rw [xread_in g hx, Res.ok_bind, if_pos, ih (by omega)]
        apply hrest
        rw [List.getElem_cons_succ]
        exact List.getElem_mem _
      · have hE : e + 1 = (u :: c2).length := by omega
        rw [hE, xread_end g (u :: c2), Res.ok_bind, if_pos hbig, ih (by omega)]
  unfold update ranges
  rw [xread_in g h1, Res.ok_bind, hup, Res.ok_bind, hprev, Res.ok_bind, hdown _ (Nat.le_refl _), Res.ok_bind,
    xread_in g (show (u :: c2)[0]? = some u from rfl), Res.ok_bind]
  obtain ⟨ls, hl1, _⟩ := skipUp_spec g c1 (g.lo (g.xs u)) c1.length 0 (by omega)
  rw [hl1, Res.ok_bind]
  rfl

/-- C48 is refuted as soon as coordinates are transferred: the windows are too small for one element of more than one
byte, so that every `MPI_Get` leaves its window; elements of one byte would fit. -/
theorem C48_window_refuted (n w : Nat) (hn : 0 < n) (hw : 1 < w) : getsInside n w = false ∧ getsInside n 1 = true := by
  unfold getsInside
  have : n * 1 < n * w := Nat.mul_lt_mul_of_pos_left hw hn
  exact ⟨decide_eq_false (by omega), decide_eq_true (by omega)⟩

/-! ### What is compared -/

theorem sorted_le (g : Geo K T) {c : List T} (hs : c.Pairwise fun a b => g.xs a ≤ g.xs b) {i j : Nat} {a b : T}
    (hij : i ≤ j) (ha : c[i]? = some a) (hb : c[j]? = some b) : g.xs a ≤ g.xs b := by
  rcases Nat.eq_or_lt_of_le hij with e | e
  · subst e; rw [ha] at hb; cases hb; exact le_refl _
  · obtain ⟨h1, e1⟩ := List.getElem?_eq_some_iff.mp ha
    obtain ⟨h2, e2⟩ := List.getElem?_eq_some_iff.mp hb
    subst e1; subst e2
    exact List.pairwise_iff_getElem.mp hs i j h1 h2 e

/-- A pair whose source coordinates are close is compared, if both traces have a successor which is close as well. -/
theorem update_compares (g : Geo K T) (hlo : ∀ x y, x ≤ y → g.lo x ≤ g.lo y)
    (hhi : ∀ x y, x ≤ y → g.hi x ≤ g.hi y) {c1 c2 : List T} (hb1 : Below g c1) (hb2 : Below g c2) (hs1 : c1.Pairwise fun a b => g.xs a ≤ g.xs b)
    (hs2 : c2.Pairwise fun a b => g.xs a ≤ g.xs b) {st st' : List (Nat × K)} (hl : st.length = c1.length)
    (h : update g c1 c2 st = .ok st') {i j i' j' : Nat} {t u t' u' : T} (ht : c1[i]? = some t) (hu : c2[j]? = some u)
    (n1 : g.lo (g.xs t) ≤ g.xs u) (n3 : g.lo (g.xs u) ≤ g.xs t)
    (ht' : c1[i']? = some t') (hi : i < i') (n4 : g.xs t' ≤ g.hi (g.xs u))
    (hu' : c2[j']? = some u') (hj : j < j') (n5 : g.xs u' ≤ g.hi (g.xs t)) :
    ∃ s', st'[i]? = some s' ∧ s'.2 ≤ g.crit t u := by
  obtain ⟨ls, le, rs, re, hr, h1, h2⟩ := update_get g h
  obtain ⟨first, last, x2, x2e, hf, hla, hx2, hx2e, hle, hre, hrs, hre0, k1, k2, k3, k4⟩ := ranges_spec g hb1 hb2 hr
  have hi1 := (List.getElem?_eq_some_iff.mp ht).1
  have hj1 := (List.getElem?_eq_some_iff.mp hu).1
  have hs := List.getElem?_eq_getElem (show i < st.length by omega)
  -- the trace of the second file is in the range
  have hjrs : rs ≤ j := by
    rcases Nat.lt_or_ge j rs with q | q
    · exact absurd (k1 j u q hu) (not_lt.mpr (le_trans (hlo _ _ (sorted_le g hs1 (Nat.zero_le _) hf ht)) n1))
    · exact q
  have hjre : j' ≤ re := by
    rcases Nat.lt_or_ge re j' with q | q
    · exact absurd (k2 j' u' q hu') (not_lt.mpr (le_trans n5 (hhi _ _ (sorted_le g hs1 (by omega) ht hla))))
    · exact q
  -- the trace of the first file is in the range
  have hx2u : x2 ≤ g.xs u := by
    have hrl := List.getElem?_eq_getElem (show rs < c2.length by omega)
    rw [xread_in g hrl] at hx2
    cases hx2
    exact sorted_le g hs2 hjrs hrl hu
  have hils : ls ≤ i := by
    rcases Nat.lt_or_ge i ls with q | q
    · exact absurd (k3 i t q ht) (not_lt.mpr (le_trans (hlo _ _ hx2u) n3))
    · exact q
  have hile : i' ≤ le := by
    rcases Nat.lt_or_ge le i' with q | q
    · exact absurd (k4 i' t' q ht')
        (not_lt.mpr (le_trans n4 (hhi _ _ (sorted_le g hs2 (by omega) hu hx2e))))
    · exact q
  refine ⟨_, h2 i t _ ht hs, ?_⟩
  rw [if_pos ⟨by omega, by omega⟩]
  apply scan_mem
  have : ((c2.drop rs).take (re - rs))[j - rs]? = some u := by
    rw [List.getElem?_take_of_lt (by omega), List.getElem?_drop, show rs + (j - rs) = j by omega]
    exact hu
  exact List.mem_of_getElem? this

theorem rounds_compares (g : Geo K T) (hlo : ∀ x y, x ≤ y → g.lo x ≤ g.lo y)
    (hhi : ∀ x y, x ≤ y → g.hi x ≤ g.hi y) {c1 c2 : List T} (hb1 : Below g c1) (hs1 : c1.Pairwise fun a b => g.xs a ≤ g.xs b)
    (hs2 : c2.Pairwise fun a b => g.xs a ≤ g.xs b) {i j i' j' : Nat} {t u t' u' : T} (ht : c1[i]? = some t)
    (hu : c2[j]? = some u) (n1 : g.lo (g.xs t) ≤ g.xs u) (n3 : g.lo (g.xs u) ≤ g.xs t)
    (ht' : c1[i']? = some t') (hi : i < i') (n4 : g.xs t' ≤ g.hi (g.xs u))
    (hu' : c2[j']? = some u') (hj : j < j') (n5 : g.xs u' ≤ g.hi (g.xs t)) :
    ∀ (c2s : List (List T)) (st st' : List (Nat × K)), (∀ c ∈ c2s, Below g c) → st.length = c1.length → rounds g c1 c2s st = .ok st' →
      c2 ∈ c2s → ∃ s', st'[i]? = some s' ∧ s'.2 ≤ g.crit t u := by
  intro c2s
  induction c2s with
  | nil => intro st st' _ _ _ hm; cases hm
  | cons d rest ih =>
    intro st st' hb2 hl h hm
    unfold rounds at h
    cases ha : isActive g c1 d with
    | abort => rw [ha] at h; cases h
    | ub => rw [ha] at h; cases h
    | ok a =>
    rw [ha, Res.ok_bind] at h
    rcases List.mem_cons.mp hm with e | e
    · subst e
      have hat : a = true := by
        have hi1 := (List.getElem?_eq_some_iff.mp ht).1
        have hj1 := (List.getElem?_eq_some_iff.mp hu).1
        have f1 := List.getElem?_eq_getElem (show 0 < c1.length by omega)
        have f2 := List.getElem?_eq_getElem (show 0 < c2.length by omega)
        have l1 := List.getElem?_eq_getElem (show c1.length - 1 < c1.length by omega)
        have l2 := List.getElem?_eq_getElem (show c2.length - 1 < c2.length by omega)
        have p1 : xreadPrev g c1 c1.length = .ok (g.xs c1[c1.length - 1]) := by
          obtain ⟨n, hn⟩ : ∃ n, c1.length = n + 1 := ⟨c1.length - 1, by omega⟩
          have hl' : c1.length - 1 = n := by omega
          rw [← xread_in g l1, hl', hn]
          rfl
        have p2 : xreadPrev g c2 c2.length = .ok (g.xs c2[c2.length - 1]) := by
          obtain ⟨n, hn⟩ : ∃ n, c2.length = n + 1 := ⟨c2.length - 1, by omega⟩
          have hl' : c2.length - 1 = n := by omega
          rw [← xread_in g l2, hl', hn]
          rfl
        unfold isActive at ha
        rw [xread_in g f2, Res.ok_bind, p2, Res.ok_bind, xread_in g f1, Res.ok_bind, p1, Res.ok_bind] at ha
        injection ha with ha
        rw [← ha, Bool.and_eq_true, decide_eq_true_eq, decide_eq_true_eq]
        exact ⟨le_trans (hlo _ _ (sorted_le g hs2 (Nat.zero_le _) f2 hu)) (le_trans n3 (sorted_le g hs1 (by omega) ht l1)),
          le_trans (sorted_le g hs1 (Nat.zero_le _) f1 ht) (le_trans (le_trans (sorted_le g hs1 (by omega) ht ht') n4) (hhi _ _ (sorted_le g hs2 (by omega) hu l2)))⟩
      subst hat
      simp only [↓reduceIte] at h
      cases hup : update g c1 c2 st with
      | abort => rw [hup] at h; cases h
      | ub => rw [hup] at h; cases h
      | ok st1 =>
      rw [hup, Res.ok_bind] at h
      obtain ⟨s1, q1, q2⟩ := update_compares g hlo hhi hb1 (hb2 _ List.mem_cons_self) hs1 hs2 hl hup ht hu n1 n3 ht' hi n4 hu' hj n5
      obtain ⟨_, w⟩ := rounds_entry g hb1 rest st1 st' (fun c hc => hb2 c (List.mem_cons_of_mem _ hc)) (update_entry g hb1 (hb2 _ List.mem_cons_self) hl hup).1 h
      obtain ⟨s', p1, p2, _⟩ := w i t s1 ht q1
      exact ⟨s', p1, le_trans p2 q2⟩
    · cases a with
      | false => exact ih st st' (fun c hc => hb2 c (List.mem_cons_of_mem _ hc)) hl h e
      | true =>
        simp only [↓reduceIte] at h
        cases hup : update g c1 d st with
        | abort => rw [hup] at h; cases h
        | ub => rw [hup] at h; cases h
        | ok st1 =>
        rw [hup, Res.ok_bind] at h
        exact ih st1 st' (fun c hc => hb2 c (List.mem_cons_of_mem _ hc)) (update_entry g hb1 (hb2 _ List.mem_cons_self) hl hup).1 h e

/-- C48 (proved part, completeness): the coordinates being sorted, a trace ends up with a criterion at most that of any trace
of the second file whose source is close, provided both have a successor which is close as well.  Missing: the last
traces of every process and geometries for which only the reverse criterion is small, which are refuted. -/
theorem C48_compared_partial (g : Geo K T) (hlo : ∀ x y, x ≤ y → g.lo x ≤ g.lo y)
    (hhi : ∀ x y, x ≤ y → g.hi x ≤ g.hi y) (r : Nat) (c1 c2 : List T) (c2s : List (List T)) (st : List (Nat × K))
    (hb1 : Below g c1) (hb2 : ∀ c ∈ c2s, Below g c) (h : calc4DBin g r c1 c2s = .ok st) (hm : c2 ∈ c2s) (hs1 : c1.Pairwise fun a b => g.xs a ≤ g.xs b)
    (hs2 : c2.Pairwise fun a b => g.xs a ≤ g.xs b) (i j i' j' : Nat) (t u t' u' : T) (ht : c1[i]? = some t)
    (hu : c2[j]? = some u) (n1 : g.lo (g.xs t) ≤ g.xs u) (n3 : g.lo (g.xs u) ≤ g.xs t)
    (ht' : c1[i']? = some t') (hi : i < i') (n5 : g.xs t' ≤ g.hi (g.xs u))
    (hu' : c2[j']? = some u') (hj : j < j') (n6 : g.xs u' ≤ g.hi (g.xs t)) :
    ∃ s, st[i]? = some s ∧ s.2 ≤ g.crit t u := by
  obtain ⟨_, f, _, _, hs⟩ := calc_start g h
  exact rounds_compares g hlo hhi hb1 hs1 hs2 ht hu n1 n3 ht' hi n5 hu' hj n6 c2s _ st hb2
    (by unfold initUpdate; rw [List.length_map]) hs hm

/-! ### When the search is free of undefined behaviour -/

theorem skipDown_ok (g : Geo K T) (c : List T) (b : K) (low k : Nat) {t : T} (ht : c[k]? = some t) (hb : g.xs t ≤ b) :
    ∀ e, k ≤ e → e ≤ c.length → ∃ e', skipDown g c b low e = .ok e' ∧ k ≤ e' ∧ e' ≤ e := by
  intro e
  induction e with
  | zero =>
    intro hk _
    obtain rfl : k = 0 := by omega
    unfold skipDown
    refine ⟨0, ?_, by omega, by omega⟩
    split_ifs
    · rw [xread_in g ht, Res.ok_bind, if_neg (not_lt.mpr hb)]
    · rfl
  | succ e ih =>
    intro hk he
    unfold skipDown
    split_ifs
    · obtain ⟨x, hx⟩ := xread_le g he
      rw [hx, Res.ok_bind]
      split_ifs with hlt
      · rcases Nat.eq_or_lt_of_le hk with q | q
        · subst q; rw [xread_in g ht] at hx; cases hx; exact absurd hlt (not_lt.mpr hb)
        · obtain ⟨e', h1, h2, h3⟩ := ih (by omega) (by omega)
          exact ⟨e', h1, h2, by omega⟩
      · exact ⟨e + 1, rfl, hk, Nat.le_refl _⟩
    · exact ⟨e + 1, rfl, hk, Nat.le_refl _⟩

/-- Two traces of the second file below the upper bound are enough for one step. -/
theorem update_ok (g : Geo K T) (hhi : ∀ x y, x ≤ y → g.hi x ≤ g.hi y) {c1 c2 : List T} {st : List (Nat × K)}
    (hb1 : Below g c1) (hs2 : c2.Pairwise fun a b => g.xs a ≤ g.xs b) {first last u v : T} (h1 : c1[0]? = some first)
    (h2 : c1[c1.length - 1]? = some last) (hu : c2[0]? = some u) (hv : c2[1]? = some v)
    (n1 : g.xs v ≤ g.hi (g.xs last)) (n2 : g.xs first ≤ g.hi (g.xs u)) : ∃ st', update g c1 c2 st = .ok st' := by
  have hpos : 0 < c1.length := (List.getElem?_eq_some_iff.mp h1).1
  have hv1 := (List.getElem?_eq_some_iff.mp hv).1
  have hprev : xreadPrev g c1 c1.length = .ok (g.xs last) := by
    obtain ⟨n, hn⟩ : ∃ n, c1.length = n + 1 := ⟨c1.length - 1, by omega⟩
    rw [hn] at h2 ⊢
    exact xread_in g h2
  obtain ⟨rs, hr1, _, hr3, _⟩ := skipUp_spec g c2 (g.lo (g.xs first)) c2.length 0 (by omega)
  obtain ⟨re, hd1, hd2, _⟩ := skipDown_ok g c2 (g.hi (g.xs last)) rs 1 hv n1 c2.length (by omega) (Nat.le_refl _)
  have hre := skipDown_lt g c2 _ rs (by omega) (hb1 last (List.mem_of_getElem? h2)) hd1
  obtain ⟨x2, hx2⟩ := xread_le g (show rs ≤ c2.length by omega)
  obtain ⟨ls, hl1, _⟩ := skipUp_spec g c1 (g.lo x2) c1.length 0 (by omega)
  have hxe := List.getElem?_eq_getElem (show re - 1 < c2.length by omega)
  have hpe : xreadPrev g c2 re = .ok (g.xs c2[re - 1]) := by
    obtain ⟨n, rfl⟩ : ∃ n, re = n + 1 := ⟨re - 1, by omega⟩
    exact xread_in g hxe
  obtain ⟨le, he1, _⟩ := skipDown_ok g c1 (g.hi (g.xs c2[re - 1])) ls 0 h1
    (le_trans n2 (hhi _ _ (sorted_le g hs2 (Nat.zero_le _) hu hxe))) c1.length (by omega) (Nat.le_refl _)
  unfold update ranges
  rw [xread_in g h1, Res.ok_bind, hr1, Res.ok_bind, hprev, Res.ok_bind, hd1, Res.ok_bind, hx2, Res.ok_bind, hl1,
    Res.ok_bind, hpe, Res.ok_bind, he1, Res.ok_bind, Res.ok_bind]
  exact ⟨_, rfl⟩

/-- C48 (proved part): the search is free of undefined behaviour if on every process the second file has two traces whose
sources are within the limit of the extreme sources of the first file. -/
theorem C48_defined_partial (g : Geo K T) (hhi : ∀ x y, x ≤ y → g.hi x ≤ g.hi y) (r : Nat) (c1 : List T)
    (c2s : List (List T)) (hr : r < c2s.length) (hb1 : Below g c1) (first last : T) (h1 : c1[0]? = some first)
    (h2 : c1[c1.length - 1]? = some last)
    (hc : ∀ c ∈ c2s, (c.Pairwise fun a b => g.xs a ≤ g.xs b) ∧ ∃ u v, c[0]? = some u ∧ c[1]? = some v ∧
      g.xs v ≤ g.hi (g.xs last) ∧ g.xs first ≤ g.hi (g.xs u)) : ∃ st, calc4DBin g r c1 c2s = .ok st := by
  have hpos : 0 < c1.length := (List.getElem?_eq_some_iff.mp h1).1
  have hact : ∀ c ∈ c2s, ∃ a, isActive g c1 c = .ok a := by
    intro c hcm
    obtain ⟨_, u, v, hu, hv, _⟩ := hc c hcm
    have hv1 := (List.getElem?_eq_some_iff.mp hv).1
    have p : ∀ d : List T, 0 < d.length → ∃ x, xreadPrev g d d.length = .ok x := by
      intro d hd
      obtain ⟨n, hn⟩ : ∃ n, d.length = n + 1 := ⟨d.length - 1, by omega⟩
      rw [hn]
      exact ⟨_, xread_in g (List.getElem?_eq_getElem (show n < d.length by omega))⟩
    obtain ⟨x, hx⟩ := p c1 hpos
    obtain ⟨y, hy⟩ := p c (by omega)
    unfold isActive
    rw [xread_in g hu, Res.ok_bind, hy, Res.ok_bind, xread_in g h1, Res.ok_bind, hx, Res.ok_bind]
    exact ⟨_, rfl⟩
  have hrounds : ∀ (cs : List (List T)), (∀ c ∈ cs, c ∈ c2s) → ∀ st, ∃ st', rounds g c1 cs st = .ok st' := by
    intro cs
    induction cs with
    | nil => intro _ st; exact ⟨st, rfl⟩
    | cons c cs ih =>
      intro hm st
      have ih' := ih (fun d hd => hm d (List.mem_cons_of_mem _ hd))
      obtain ⟨a, ha⟩ := hact c (hm c List.mem_cons_self)
      obtain ⟨hs, u, v, hu, hv, n1, n2⟩ := hc c (hm c List.mem_cons_self)
      unfold rounds
      rw [ha, Res.ok_bind]
      cases a with
      | false => exact ih' st
      | true =>
        obtain ⟨st1, e⟩ := update_ok g (st := st) hhi hb1 hs h1 h2 hu hv n1 n2
        simp only [↓reduceIte]
        rw [e, Res.ok_bind]
        exact ih' st1
  unfold calc4DBin
  obtain ⟨_, u, v, hu, _⟩ := hc c2s[r] (List.getElem_mem hr)
  rw [List.getElem?_eq_getElem hr, Option.bind_some]
  have : c2s[r].head? = some u := by rw [List.head?_eq_getElem?]; exact hu
  rw [this]
  exact hrounds c2s (fun _ h => h) _

/-! ### Real coordinates -/

/-- `hypot` of `util/4dcore.cc:84-88` on exact numbers. -/
noncomputable def hyp (x y : ℝ) : ℝ := Real.sqrt (x * x + y * y)

theorem abs_le_hyp (x y : ℝ) : |x| ≤ hyp x y := by
  unfold hyp
  rw [← Real.sqrt_mul_self_eq_abs]
  exact Real.sqrt_le_sqrt (by nlinarith [mul_self_nonneg y])

theorem hyp_nonneg (x y : ℝ) : 0 ≤ hyp x y := Real.sqrt_nonneg _

theorem hyp_zero (x : ℝ) : hyp x 0 = |x| := by
  unfold hyp; rw [mul_zero, add_zero, Real.sqrt_mul_self_eq_abs]

/-- C48 (proved part) for exact coordinates: if the two boats go in the same direction and the distances of the sources and
of the receivers add up to at most the limit, then the result is at most that sum, provided both traces have a
successor with a close source. -/
theorem C48_forward_partial (dmax big : ℝ) (r : Nat) (c1 c2 : List (Pt ℝ)) (c2s : List (List (Pt ℝ)))
    (st : List (Nat × ℝ)) (hb : ∀ t ∈ c1 ++ c2s.flatten, t.xs + dmax < big)
    (h : calc4DBin (geoPt hyp dmax big) r c1 c2s = .ok st) (hm : c2 ∈ c2s)
    (hs1 : c1.Pairwise fun a b => a.xs ≤ b.xs) (hs2 : c2.Pairwise fun a b => a.xs ≤ b.xs)
    (i j i' j' : Nat) (t u t' u' : Pt ℝ) (ht : c1[i]? = some t) (hu : c2[j]? = some u)
    (hf : hyp (t.xs - u.xs) (t.ys - u.ys) + hyp (t.xr - u.xr) (t.yr - u.yr) ≤ dmax)
    (ht' : c1[i']? = some t') (hi : i < i') (n1 : t'.xs ≤ u.xs + dmax)
    (hu' : c2[j']? = some u') (hj : j < j') (n2 : u'.xs ≤ t.xs + dmax) :
    ∃ s, st[i]? = some s ∧ s.2 ≤ hyp (t.xs - u.xs) (t.ys - u.ys) + hyp (t.xr - u.xr) (t.yr - u.yr) := by
  have ha := abs_le_hyp (t.xs - u.xs) (t.ys - u.ys)
  have hn := hyp_nonneg (t.xr - u.xr) (t.yr - u.yr)
  have h1 := le_abs_self (t.xs - u.xs)
  have h2 := neg_abs_le (t.xs - u.xs)
  obtain ⟨s, e1, e2⟩ := C48_compared_partial (geoPt hyp dmax big)
    (fun x y hxy => by show x - dmax ≤ y - dmax; linarith) (fun x y hxy => by show x + dmax ≤ y + dmax; linarith)
    r c1 c2 c2s st (fun a ha' => hb a (List.mem_append_left _ ha'))
    (fun c hc a ha' => hb a (List.mem_append_right _ (List.mem_flatten.mpr ⟨c, hc, ha'⟩))) h hm hs1 hs2 i j i' j' t u t' u'
    ht hu (by show t.xs - dmax ≤ u.xs; linarith)
    (by show u.xs - dmax ≤ t.xs; linarith) ht' hi n1 hu' hj n2
  exact ⟨s, e1, le_trans e2 (min_le_left _ _)⟩

/-- C48 is refuted for boats going in opposite directions: for every limit there is a pair with criterion zero which is not
found, because the process is not contacted; the trace found is beyond the limit. -/
theorem C48_reverse_refuted (dmax big : ℝ) :
    ∃ a f b : Pt ℝ, dsr hyp a b = 0 ∧ f.xs ≤ b.xs ∧ dmax < dsr hyp a f ∧ f.tn ≠ b.tn ∧
      calc4DBin (geoPt hyp dmax big) 0 [a] [[f, b]] = .ok [(f.tn, dsr hyp a f)] := by
  let L := dmax + 1
  refine ⟨⟨0, 0, L, 0, 0⟩, ⟨L, 0, L, 0, 0⟩, ⟨L, 0, 0, 0, 1⟩, ?_, le_refl _, ?_, Nat.zero_ne_one, ?_⟩
  · unfold dsr
    simp only [sub_self, hyp_zero, abs_zero, add_zero]
    exact min_eq_right (by positivity)
  · unfold dsr
    simp only [sub_self, hyp_zero, abs_zero, add_zero, zero_sub, abs_neg, min_self]
    exact lt_of_lt_of_le (by show dmax < dmax + 1; linarith) (le_abs_self L)
  · have hact : isActive (geoPt hyp dmax big) [⟨0, 0, L, 0, 0⟩] [⟨L, 0, L, 0, 0⟩, ⟨L, 0, 0, 0, 1⟩] = .ok false := by
      show Res.ok (decide (L - dmax ≤ 0) && decide (0 ≤ L + dmax)) = _
      rw [decide_eq_false (by show ¬ (dmax + 1 - dmax ≤ 0); norm_num)]
      rfl
    unfold calc4DBin
    show rounds _ _ [_] _ = _
    unfold rounds
    rw [hact]
    rfl

/-! ### Examples -/

/-- Whole numbers on one line, where the hypotenuse is the larger of the absolute values. -/
def lineGeo : Geo Int (Pt Int) := geoPt (fun x y => max |x| |y|) 10 1000000

/-- A trace with source and receiver at the same place. -/
def spot (x : Int) (n : Nat) : Pt Int := ⟨x, 0, x, 0, n⟩

/-- The last trace has a partner at the same place, but another one is reported. -/
theorem C48_missed_refuted :
    calc4DBin lineGeo 0 [spot 0 0, spot 1 1, spot 2 2] [[spot 0 0, spot 1 1, spot 2 2]] = .ok [(0, 0), (1, 0), (0, 4)] ∧
      lineGeo.crit (spot 2 2) (spot 2 2) = 0 := by
  constructor <;> decide +kernel

example : Below lineGeo [spot 0 0, spot 1 1, spot 2 2] := by
  intro t ht
  fin_cases ht <;> decide

/-- The hypotheses of `C48_compared_partial` for the middle trace. -/
example : ∃ s, ([(0, 0), (1, 0), (0, 4)] : List (Nat × Int))[1]? = some s ∧ s.2 ≤ 0 :=
  C48_compared_partial lineGeo (fun x y h => by show x - 10 ≤ y - 10; omega) (fun x y h => by show x + 10 ≤ y + 10; omega) 0
    [spot 0 0, spot 1 1, spot 2 2] [spot 0 0, spot 1 1, spot 2 2] [[spot 0 0, spot 1 1, spot 2 2]] _
    (by intro t ht; fin_cases ht <;> decide) (by intro c hc t ht; fin_cases hc; fin_cases ht <;> decide)
    C48_missed_refuted.1 (by simp) (by decide) (by decide) 1 1 2 2 (spot 1 1) (spot 1 1) (spot 2 2) (spot 2 2)
    rfl rfl (by decide) (by decide) rfl (by decide) (by decide) rfl (by decide) (by decide)

/-- The hypotheses of `C48_forward_partial`: the search over exact numbers returns for two equal files of three traces. -/
example : ∃ st, calc4DBin (geoPt hyp 10 1000) 0 [⟨0, 0, 5, 0, 0⟩, ⟨1, 0, 6, 0, 1⟩, ⟨2, 0, 7, 0, 2⟩]
    [[⟨0, 0, 5, 0, 0⟩, ⟨1, 0, 6, 0, 1⟩, ⟨2, 0, 7, 0, 2⟩]] = .ok st := by
  refine C48_defined_partial (geoPt hyp 10 1000) (fun x y h => by show x + 10 ≤ y + 10; linarith) 0 _ _ (by decide) ?_ _ _
    rfl rfl ?_
  · intro t ht
    fin_cases ht <;> (simp only [geoPt]; norm_num)
  · intro c hc
    fin_cases hc
    refine ⟨?_, _, _, rfl, rfl, ?_, ?_⟩
    · simp only [List.pairwise_cons, List.mem_cons, List.not_mem_nil, or_false, forall_eq_or_imp, forall_eq, geoPt]
      norm_num
    · show (1 : ℝ) ≤ 2 + 10; norm_num
    · show (0 : ℝ) ≤ 0 + 10; norm_num

example : update lineGeo [spot 0 0, spot 1 1] [spot 1 1] [(0, 5), (0, 5)] = .ub := by decide +kernel

example : ∀ c ∈ [[spot 0 0, spot 1 1, spot 2 2]], c.Pairwise fun a b => lineGeo.xs a ≤ lineGeo.xs b := by
  decide +kernel

end Verif.Util
