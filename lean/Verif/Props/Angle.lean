import Verif.Flow.Angle

/-!
# C71: angle gathers

Sample `z` of the trace for angle `j` is sample `z` of the input trace whose number is the rounded distance `dist v j`,
`v` the velocity of this gather at the time of the sample, divided by the bin; zero if there is no such trace. Every trace
has the inline and crossline of the gather.
-/

namespace Verif.Props

open Verif.Flow Verif.Signal

variable {V S : Type}

/-- What the sample is when trace 0 is not used: the input sample, or zero. -/
def angleSample (zero : S) (inp : List S) (iGSz ns : Nat) (q : Int) (z : Nat) : S :=
  if 0 < q ∧ q < iGSz then inp[q.toNat * ns + z]?.getD zero else zero

theorem binOf_eq (st : Radon V) (v : V) (j iGSz : Nat) (h0 : st.vBin ≠ 0) (hb : st.vBin * iGSz ≤ 2 ^ 63)
    (hd1 : -2 ^ 63 ≤ st.dist v j) (hd2 : st.dist v j < 2 ^ 63) :
    ∃ k, binOf st v j = .ok k ∧ ((0 < k ∧ k.toNat < iGSz) ↔ (0 < st.dist v j / st.vBin ∧ st.dist v j / st.vBin < iGSz)) ∧
      (0 < k ∧ k.toNat < iGSz → k = st.dist v j / st.vBin) := by
  unfold binOf
  rw [if_neg h0]
  refine ⟨_, rfl, ?_⟩
  generalize st.dist v j = d at *
  generalize hbb : st.vBin = b at *
  have hbpos : 0 < b := by omega
  by_cases hneg : 0 ≤ d
  · obtain ⟨n, rfl⟩ := Int.eq_ofNat_of_zero_le hneg
    have h1 : ((n : Int) % 2 ^ 64).toNat = n := by omega
    rw [h1]
    have h2 : n / b < 2 ^ 63 := Nat.lt_of_le_of_lt (Nat.div_le_self _ _) (by omega)
    have h3 : toInteger (n / b) = ((n / b : Nat) : Int) := by unfold toInteger; rw [if_pos h2]
    rw [h3, ← Int.natCast_ediv]
    refine ⟨by omega, fun _ => rfl⟩
  · have hq : d / (b : Int) < 0 := Int.ediv_neg_of_neg_of_pos (by omega) (by omega)
    have hnot : ¬ (0 < toInteger ((d % 2 ^ 64).toNat / b) ∧ (toInteger ((d % 2 ^ 64).toNat / b)).toNat < iGSz) := by
      rintro ⟨h1, h2⟩
      have h3 : 2 ^ 63 ≤ (d % 2 ^ 64).toNat := by omega
      have h4 : iGSz ≤ (d % 2 ^ 64).toNat / b := by
        rw [Nat.le_div_iff_mul_le hbpos, Nat.mul_comm]; omega
      unfold toInteger at h1 h2
      split at h1 <;> rename_i hc
      · rw [if_pos hc] at h2; omega
      · have : (d % 2 ^ 64).toNat / b ≤ (d % 2 ^ 64).toNat := Nat.div_le_self _ _
        omega
    exact ⟨⟨fun h => absurd h hnot, fun h => absurd h.1 (by omega)⟩, fun h => absurd h hnot⟩

theorem idx_lt {a b n m : Nat} (ha : a < n) (hb : b < m) : a * m + b < n * m := by
  have := Nat.mul_le_mul_right m (show a + 1 ≤ n from ha)
  rw [Nat.add_mul, Nat.one_mul] at this
  omega

theorem idx_ne {a b c d m : Nat} (hb : b < m) (hd : d < m) (h : ¬ (a = c ∧ b = d)) : a * m + b ≠ c * m + d := by
  intro he
  apply h
  have h1 : (a * m + b) / m = a := by
    rw [Nat.mul_comm, Nat.mul_add_div (by omega), Nat.div_eq_of_lt hb]; rfl
  have h2 : (c * m + d) / m = c := by
    rw [Nat.mul_comm, Nat.mul_add_div (by omega), Nat.div_eq_of_lt hd]; rfl
  have : a = c := by rw [← h1, he, h2]
  subst this
  exact ⟨rfl, by omega⟩

/-- The input sample at an index of a trace that exists, as read by the code. -/
theorem angle_read (zero : S) (inp : List S) {iGSz ns k z : Nat} (hl : inp.length = iGSz * ns) (hs : iGSz * ns < 2 ^ 64)
    (hk : k < iGSz) (hz : z < ns) :
    readAt inp (add64 (mul64 k ns) z) = .ok (inp[k * ns + z]?.getD zero) := by
  have h := idx_lt hk hz
  rw [mul64_eq (a := k) (b := ns) (by omega), add64_eq (a := k * ns) (b := z) (by omega), readAt_ok (by omega),
    List.getElem?_eq_getElem (by omega)]
  rfl

theorem angleKeys_ok (st : Radon V) (gNum : Nat) (a b : Int) (ha : st.il[gNum]? = some a) (hb : st.xl[gNum]? = some b) :
    angleKeys st gNum (List.replicate st.oGSz (0, 0)) = .ok (List.replicate st.oGSz (a, b)) := by
  unfold angleKeys
  obtain ⟨k, h1, h2⟩ := forRange_inv (fun j keys => do
    let il ← readAt st.il gNum
    let xl ← readAt st.xl gNum
    writeAt keys j (il, xl)) (fun j (l : List (Int × Int)) => l.length = st.oGSz ∧ ∀ i, i < j → i < st.oGSz → l[i]? = some (a, b))
    st.oGSz 0 (List.replicate st.oGSz (0, 0)) ⟨by simp, fun i hi => by omega⟩ (by
      intro j l _ hj hl
      refine ⟨l.set j (a, b), ?_, by simpa using hl.1, ?_⟩
      · simp only [readAt_some ha, readAt_some hb, Res.ok_bind]
        exact writeAt_ok _ (by omega)
      · intro i hi hi2
        rw [List.getElem?_set]
        by_cases hij : j = i
        · subst hij; simp; omega
        · rw [if_neg hij]; exact hl.2 i (by omega) hi2)
  rw [h1]
  congr 1
  rw [ext_of_get (g := fun _ => (a, b)) h2.1 (fun i hi => h2.2 i (by omega) hi)]
  apply List.ext_getElem?
  intro i
  by_cases hi : i < st.oGSz <;> simp [hi]

/-- **C71** (partial: the claim also covers the first trace, samples later than the velocity model, and a bin of 0, see
`C71_first_refuted`, `C71_late_refuted`, `C71_bin_refuted`). For every gather of the model, every number of traces, samples
and angles: if the model has a velocity at the time of every sample, the angle gather is computed without undefined
behaviour; sample `z` of trace `j` is sample `z` of the input trace numbered `dist v j / vBin` (rounded down) if that
number is at least 1 and there is such a trace, and zero if not; the keys are those of the gather. -/
theorem C71_samples_partial (zero : S) (st : Radon V) (gNum iGSz ns nG : Nat) (inp : List S) (a b : Int)
    (hv : st.vtrc.length = nG * st.vNs) (hvs : nG * st.vNs < 2 ^ 64) (hg : gNum < nG)
    (hidx : ∀ z, z < ns → st.vidx z < st.vNs) (h0 : st.vBin ≠ 0) (hb : st.vBin * iGSz ≤ 2 ^ 63) (hi : 0 < iGSz)
    (hl : inp.length = iGSz * ns) (hs : iGSz * ns < 2 ^ 64) (ho : st.oGSz * ns < 2 ^ 64)
    (hd : ∀ v j, -2 ^ 63 ≤ st.dist v j ∧ st.dist v j < 2 ^ 63)
    (ha : st.il[gNum]? = some a) (hxb : st.xl[gNum]? = some b) :
    ∃ out, toAngle zero st gNum iGSz ns inp = .ok (out, List.replicate st.oGSz (a, b)) ∧ out.length = st.oGSz * ns ∧
      ∀ j z, j < st.oGSz → z < ns → ∃ v, st.vtrc[gNum * st.vNs + st.vidx z]? = some v ∧
        out[j * ns + z]? = some (angleSample zero inp iGSz ns (st.dist v j / st.vBin) z) := by
  -- one cell
  have hcell : ∀ j z (out : List S), j < st.oGSz → z < ns → out.length = st.oGSz * ns → out[j * ns + z]? = some zero →
      ∃ v out', st.vtrc[gNum * st.vNs + st.vidx z]? = some v ∧ angleCell st gNum iGSz ns inp j z out = .ok out' ∧
        out'.length = st.oGSz * ns ∧
        out'[j * ns + z]? = some (angleSample zero inp iGSz ns (st.dist v j / st.vBin) z) ∧
        ∀ i, i ≠ j * ns + z → out'[i]? = out[i]? := by
    intro j z out hj hz hlen hzero
    have hvi := hidx z hz
    have hin := idx_lt hg hvi
    have hmin : min (st.vidx z) st.vNs = st.vidx z := by omega
    have hj2 := idx_lt hj hz
    refine ⟨st.vtrc[gNum * st.vNs + st.vidx z]'(by omega), ?_⟩
    generalize hvv : st.vtrc[gNum * st.vNs + st.vidx z]'(by omega) = v
    obtain ⟨k, hk1, hk2, hk3⟩ := binOf_eq st v j iGSz h0 hb (hd v j).1 (hd v j).2
    have hread : readAt st.vtrc (add64 (mul64 gNum st.vNs) (min (st.vidx z) st.vNs)) = .ok v := by
      rw [hmin, mul64_eq (a := gNum) (b := st.vNs) (by omega), add64_eq (a := gNum * st.vNs) (b := st.vidx z) (by omega),
        readAt_ok (by omega), hvv]
    have hvs : st.vtrc[gNum * st.vNs + st.vidx z]? = some v := by
      rw [List.getElem?_eq_getElem (by omega), hvv]
    unfold angleCell
    rw [hread, Res.ok_bind, hk1, Res.ok_bind]
    by_cases hc : 0 < k ∧ k.toNat < iGSz
    · rw [if_pos hc, angle_read zero inp hl hs hc.2 hz, Res.ok_bind, mul64_eq (a := j) (b := ns) (by omega),
        add64_eq (a := j * ns) (b := z) (by omega), writeAt_ok _ (by omega)]
      refine ⟨_, hvs, rfl, by simpa using hlen, ?_, ?_⟩
      · rw [List.getElem?_set_self (by omega)]
        unfold angleSample
        rw [if_pos (hk2.1 hc), hk3 hc]
      · intro i hi
        rw [List.getElem?_set_ne (Ne.symm hi)]
    · rw [if_neg hc]
      refine ⟨out, hvs, rfl, hlen, ?_, fun _ _ => rfl⟩
      unfold angleSample
      rw [if_neg (fun h => hc (hk2.2 h)), hzero]
  -- what is true of a cell already done
  let Done : List S → Nat → Nat → Prop := fun out j z => ∃ v, st.vtrc[gNum * st.vNs + st.vidx z]? = some v ∧
        out[j * ns + z]? = some (angleSample zero inp iGSz ns (st.dist v j / st.vBin) z)
  have hrow : ∀ j (out : List S), j < st.oGSz → out.length = st.oGSz * ns →
      (∀ j' z, j' < j → z < ns → Done out j' z) → (∀ j' z, j ≤ j' → j' < st.oGSz → z < ns → out[j' * ns + z]? = some zero) →
      ∃ out', forRange (fun z out => angleCell st gNum iGSz ns inp j z out) 0 ns out = .ok out' ∧
        out'.length = st.oGSz * ns ∧ (∀ j' z, j' < j + 1 → z < ns → Done out' j' z) ∧
        (∀ j' z, j + 1 ≤ j' → j' < st.oGSz → z < ns → out'[j' * ns + z]? = some zero) := by
    intro j out hj hlen hdone hzero
    obtain ⟨out', h1, h2, h3, h4⟩ := forRange_inv (fun z out => angleCell st gNum iGSz ns inp j z out)
      (fun z0 (out : List S) => out.length = st.oGSz * ns ∧
        (∀ j' z, j' < st.oGSz → z < ns → (j' < j ∨ (j' = j ∧ z < z0)) → Done out j' z) ∧
        (∀ j' z, j' < st.oGSz → z < ns → (j < j' ∨ (j' = j ∧ z0 ≤ z)) → out[j' * ns + z]? = some zero)) ns 0 out
      ⟨hlen, fun j' z hj' hz h => hdone j' z (by omega) hz, fun j' z hj' hz h => hzero j' z (by omega) hj' hz⟩ (by
        intro z0 out _ hz0 hP
        have hz0' : z0 < ns := by omega
        obtain ⟨v, out', hv1, hc1, hc2, hc3, hc4⟩ := hcell j z0 out hj hz0' hP.1
          (hP.2.2 j z0 hj hz0' (Or.inr ⟨rfl, Nat.le_refl _⟩))
        refine ⟨out', hc1, hc2, ?_, ?_⟩
        · intro j' z hj' hz h
          by_cases he : j' = j ∧ z = z0
          · obtain ⟨rfl, rfl⟩ := he
            exact ⟨v, hv1, hc3⟩
          · obtain ⟨v', hv', hd'⟩ := hP.2.1 j' z hj' hz (by omega)
            exact ⟨v', hv', by rw [hc4 _ (idx_ne hz hz0' he)]; exact hd'⟩
        · intro j' z hj' hz h
          rw [hc4 _ (idx_ne hz hz0' (by omega))]
          exact hP.2.2 j' z hj' hz (by omega))
    refine ⟨out', h1, h2, fun j' z hj' hz => h3 j' z (by omega) hz (by omega), fun j' z hj' hj2 hz => h4 j' z hj2 hz (by omega)⟩
  obtain ⟨out, h1, h2, h3, h4⟩ := forRange_inv
    (fun j out => forRange (fun z out => angleCell st gNum iGSz ns inp j z out) 0 ns out)
    (fun j0 (out : List S) => out.length = st.oGSz * ns ∧ (∀ j z, j < j0 → j < st.oGSz → z < ns → Done out j z) ∧
      (∀ j z, j0 ≤ j → j < st.oGSz → z < ns → out[j * ns + z]? = some zero)) st.oGSz 0
    (List.replicate (st.oGSz * ns) zero)
    ⟨by simp, fun j z hj => by omega, fun j z _ hj hz => by
      have := idx_lt hj hz
      rw [List.getElem?_replicate, if_pos this]⟩ (by
      intro j out _ hj hP
      obtain ⟨out', hr1, hr2, hr3, hr4⟩ := hrow j out (by omega) hP.1 (fun j' z hj' hz => hP.2.1 j' z hj' (by omega) hz) hP.2.2
      exact ⟨out', hr1, hr2, fun j' z hj' _ hz => hr3 j' z hj' hz, hr4⟩)
  refine ⟨out, ?_, h2, fun j z hj hz => h3 j z (by omega) hj hz⟩
  unfold toAngle
  simp only
  rw [if_neg (by omega), mul64_eq (a := st.oGSz) (b := ns) ho, h1, Res.ok_bind, angleKeys_ok st gNum a b ha hxb]
  rfl

/-- A model of two gathers with two velocities each; three traces of two samples, two angles. -/
def demoRadon : Radon Int :=
  { vtrc := [10, 20, 30, 55], il := [7, 7], xl := [1, 2], vNs := 2, vBin := 20, oGSz := 2, vidx := fun z => z
    dist := fun v j => if 0 ≤ v ∧ v < 1000 ∧ j < 90 then v + 5 * j else 0 }

example : toAngle (0 : Int) demoRadon 1 3 2 [1, 2, 3, 4, 5, 6] = .ok ([3, 6, 3, 0], [(7, 2), (7, 2)]) := by decide +kernel

example : demoRadon.vtrc.length = 2 * demoRadon.vNs ∧ (∀ z, z < 2 → demoRadon.vidx z < demoRadon.vNs) ∧
    demoRadon.vBin * 3 ≤ 2 ^ 63 ∧ (∀ v j, -2 ^ 63 ≤ demoRadon.dist v j ∧ demoRadon.dist v j < 2 ^ 63) := by
  refine ⟨rfl, fun z hz => hz, by decide, fun v j => ?_⟩
  simp only [demoRadon]
  split <;> omega

/-- **C71 is false for the first trace.** No sample of the first input trace reaches the result, whatever the velocities:
two gathers that differ only in their first trace give the same. -/
theorem C71_first_refuted (zero : S) (st : Radon V) (gNum iGSz ns : Nat) (inp inp' : List S)
    (hl : inp.length = iGSz * ns) (hl' : inp'.length = iGSz * ns) (hs : iGSz * ns < 2 ^ 64)
    (hsame : inp.drop ns = inp'.drop ns) : toAngle zero st gNum iGSz ns inp = toAngle zero st gNum iGSz ns inp' := by
  have hcell : ∀ j z, z < ns → ∀ out, angleCell st gNum iGSz ns inp j z out = angleCell st gNum iGSz ns inp' j z out := by
    intro j z hz out
    unfold angleCell
    cases readAt st.vtrc (add64 (mul64 gNum st.vNs) (min (st.vidx z) st.vNs)) with
    | ub => rfl
    | abort => rfl
    | ok v =>
      rw [Res.ok_bind, Res.ok_bind]
      cases binOf st v j with
      | ub => rfl
      | abort => rfl
      | ok k =>
        rw [Res.ok_bind, Res.ok_bind]
        by_cases hc : 0 < k ∧ k.toNat < iGSz
        · rw [if_pos hc, if_pos hc]
          have h1 := idx_lt hc.2 hz
          have hk : 1 ≤ k.toNat := by omega
          have hge : ns ≤ k.toNat * ns := Nat.le_mul_of_pos_left ns hk
          rw [angle_read zero inp hl hs hc.2 hz, angle_read zero inp' hl' hs hc.2 hz]
          have hx : inp[k.toNat * ns + z]? = inp'[k.toNat * ns + z]? := by
            have e1 : inp[k.toNat * ns + z]? = (inp.drop ns)[k.toNat * ns + z - ns]? := by
              rw [List.getElem?_drop]; congr 1; omega
            have e2 : inp'[k.toNat * ns + z]? = (inp'.drop ns)[k.toNat * ns + z - ns]? := by
              rw [List.getElem?_drop]; congr 1; omega
            rw [e1, e2, hsame]
          rw [hx]
        · rw [if_neg hc, if_neg hc]
  have hfor : ∀ {T : Type} (f g : Nat → T → Res T) (n lo : Nat) (s : T), (∀ j s, lo ≤ j → j < lo + n → f j s = g j s) →
      forRange f lo n s = forRange g lo n s := by
    intro T f g n
    induction n with
    | zero => intro lo s _; rfl
    | succ n ih =>
      intro lo s h
      rw [forRange_succ, forRange_succ, h lo s (Nat.le_refl _) (by omega)]
      congr 1
      funext s
      exact ih (lo + 1) s fun j s h1 h2 => h j s (by omega) (by omega)
  unfold toAngle
  simp only
  by_cases hi : iGSz = 0
  · rw [if_pos hi, if_pos hi]
  · rw [if_neg hi, if_neg hi]
    congr 1
    refine hfor _ _ _ _ _ fun j out _ _ => ?_
    exact hfor _ _ _ _ _ fun z out _ hz => hcell j z (by omega) out

/-- The first trace is the one whose number the code computes for the first angle and sample (10 / 20 = 0). -/
example : demoRadon.dist 10 0 / demoRadon.vBin = 0 ∧
    toAngle (0 : Int) demoRadon 0 3 2 [1, 2, 3, 4, 5, 6] = .ok ([0, 4, 0, 4], [(7, 1), (7, 1)]) ∧
    toAngle (0 : Int) demoRadon 0 3 2 [8, 9, 3, 4, 5, 6] = .ok ([0, 4, 0, 4], [(7, 1), (7, 1)]) := by decide +kernel

/-- One cell of the loop either fails or keeps the length, used in the proofs. -/
theorem angleCell_len (st : Radon V) (gNum iGSz ns : Nat) (inp : List S) (j z : Nat) (out : List S)
    (hl : inp.length = iGSz * ns) (hs : iGSz * ns < 2 ^ 64) (hlen : out.length = st.oGSz * ns)
    (ho : st.oGSz * ns < 2 ^ 64) (hj : j < st.oGSz) (hz : z < ns) :
    angleCell st gNum iGSz ns inp j z out = .ub ∨
      ∃ out', angleCell st gNum iGSz ns inp j z out = .ok out' ∧ out'.length = st.oGSz * ns := by
  have hj2 := idx_lt hj hz
  unfold angleCell readAt
  cases st.vtrc[add64 (mul64 gNum st.vNs) (min (st.vidx z) st.vNs)]? with
  | none => exact Or.inl rfl
  | some v =>
    simp only [Res.ok_bind]
    unfold binOf
    by_cases h0 : st.vBin = 0
    · rw [if_pos h0]; exact Or.inl rfl
    · rw [if_neg h0, Res.ok_bind]
      split
      · rename_i hc
        have h1 := idx_lt hc.2 hz
        generalize toInteger ((st.dist v j % 2 ^ 64).toNat / st.vBin) = k at *
        rw [mul64_eq (a := k.toNat) (b := ns) (by omega), add64_eq (a := k.toNat * ns) (b := z) (by omega),
          List.getElem?_eq_getElem (by omega), Res.ok_bind, mul64_eq (a := j) (b := ns) (by omega),
          add64_eq (a := j * ns) (b := z) (by omega), writeAt_ok _ (by omega)]
        exact Or.inr ⟨_, rfl, by simpa using hlen⟩
      · exact Or.inr ⟨_, rfl, hlen⟩

/-- A cell that is undefined behaviour for every output makes the gather so. -/
theorem toAngle_ub (zero : S) (st : Radon V) (gNum iGSz ns : Nat) (inp : List S) (j z : Nat) (hj : j < st.oGSz) (hz : z < ns)
    (hl : inp.length = iGSz * ns) (hs : iGSz * ns < 2 ^ 64) (ho : st.oGSz * ns < 2 ^ 64) (hi : 0 < iGSz)
    (hcell : ∀ out, angleCell st gNum iGSz ns inp j z out = .ub) : toAngle zero st gNum iGSz ns inp = .ub := by
  have hrow : ∀ j' (out : List S), j' < st.oGSz → out.length = st.oGSz * ns →
      (forRange (fun z out => angleCell st gNum iGSz ns inp j' z out) 0 ns out = .ub ∨
        ∃ out', forRange (fun z out => angleCell st gNum iGSz ns inp j' z out) 0 ns out = .ok out' ∧
          out'.length = st.oGSz * ns) := by
    intro j' out hj' hlen
    have key : ∀ (n lo : Nat) (out : List S), lo + n ≤ ns → out.length = st.oGSz * ns →
        (forRange (fun z out => angleCell st gNum iGSz ns inp j' z out) lo n out = .ub ∨
          ∃ out', forRange (fun z out => angleCell st gNum iGSz ns inp j' z out) lo n out = .ok out' ∧
            out'.length = st.oGSz * ns) := by
      intro n
      induction n with
      | zero => intro lo out _ h; exact Or.inr ⟨out, rfl, h⟩
      | succ n ih =>
        intro lo out hle h
        rw [forRange_succ]
        rcases angleCell_len st gNum iGSz ns inp j' lo out hl hs h ho hj' (by omega) with h1 | ⟨o1, h1, h2⟩
        · rw [h1]; exact Or.inl rfl
        · rw [h1, Res.ok_bind]; exact ih (lo + 1) o1 (by omega) h2
    exact key ns 0 out (by omega) hlen
  unfold toAngle
  simp only
  rw [if_neg (by omega), mul64_eq (a := st.oGSz) (b := ns) ho]
  rw [forRange_ub _ (fun out : List S => out.length = st.oGSz * ns) j st.oGSz 0 _ (by simp)
    (fun j' out _ hj' h => hrow j' out (by omega) h) (by omega) (by omega) ?_]
  · rfl
  · intro out hlen
    exact forRange_ub _ (fun out : List S => out.length = st.oGSz * ns) z ns 0 out hlen
      (fun z' out _ hz' h => angleCell_len st gNum iGSz ns inp j z' out hl hs h ho hj (by omega)) (by omega) (by omega)
      (fun out _ => hcell out)

/-- **C71 is false for samples later than the velocity model** (the limit is `vNs`, not `vNs - 1`). For the last gather of
a process, a sample at or after the end of the model is undefined behaviour; for another gather the velocity used is the
first one of the next gather. -/
theorem C71_late_refuted (zero : S) (st : Radon V) (gNum iGSz ns nG : Nat) (inp : List S)
    (hv : st.vtrc.length = nG * st.vNs) (hvs : nG * st.vNs < 2 ^ 64) (hg : gNum < nG) (z : Nat) (hz : z < ns)
    (hlate : st.vNs ≤ st.vidx z) (ho1 : 0 < st.oGSz) (hi : 0 < iGSz)
    (hl : inp.length = iGSz * ns) (hs : iGSz * ns < 2 ^ 64) (ho : st.oGSz * ns < 2 ^ 64) :
    (gNum + 1 = nG → toAngle zero st gNum iGSz ns inp = .ub) ∧
    (gNum + 1 < nG → 0 < st.vNs → ∃ v, st.vtrc[(gNum + 1) * st.vNs + 0]? = some v ∧
      ∀ j out, angleCell st gNum iGSz ns inp j z out = (do
        let k ← binOf st v j
        if 0 < k ∧ k.toNat < iGSz then do
          let x ← readAt inp (add64 (mul64 k.toNat ns) z)
          writeAt out (add64 (mul64 j ns) z) x
        else .ok out)) := by
  have hmin : min (st.vidx z) st.vNs = st.vNs := by omega
  have hle := Nat.mul_le_mul_right st.vNs (show gNum + 1 ≤ nG from hg)
  have hsucc : (gNum + 1) * st.vNs = gNum * st.vNs + st.vNs := by rw [Nat.add_mul, Nat.one_mul]
  have hpos : add64 (mul64 gNum st.vNs) (min (st.vidx z) st.vNs) = (gNum + 1) * st.vNs := by
    rw [hmin, mul64_eq (a := gNum) (b := st.vNs) (by omega), add64_eq (a := gNum * st.vNs) (b := st.vNs) (by omega), hsucc]
  constructor
  · intro hlast
    refine toAngle_ub zero st gNum iGSz ns inp 0 z ho1 hz hl hs ho hi fun out => ?_
    unfold angleCell
    rw [hpos, readAt_ub (by rw [hv, hlast]; exact Nat.le_refl _)]
    rfl
  · intro hnext hns
    have h1 := idx_lt hnext hns
    refine ⟨st.vtrc[(gNum + 1) * st.vNs + 0]'(by omega), List.getElem?_eq_getElem (by omega), fun j out => ?_⟩
    unfold angleCell
    rw [hpos, readAt_ok (by omega)]
    rfl

/-- The same gather with another velocity in the next gather gives another result. -/
example :
    toAngle (0 : Int) { demoRadon with vidx := fun z => z + 1 } 0 3 2 [1, 2, 3, 4, 5, 6] = .ok ([3, 4, 3, 4], [(7, 1), (7, 1)]) ∧
    toAngle (0 : Int) { demoRadon with vidx := fun z => z + 1, vtrc := [10, 20, 40, 55] } 0 3 2 [1, 2, 3, 4, 5, 6]
      = .ok ([3, 6, 3, 6], [(7, 1), (7, 1)]) ∧
    toAngle (0 : Int) { demoRadon with vidx := fun z => z + 1 } 1 3 2 [1, 2, 3, 4, 5, 6] = .ub := by decide +kernel

/-- **C71 is false for a bin of 0**: it is accepted, and any gather with traces is undefined behaviour. -/
theorem C71_bin_refuted (zero : S) (st : Radon V) (gNum iGSz ns : Nat) (inp : List S) (h0 : st.vBin = 0)
    (ho1 : 0 < st.oGSz) (hi : 0 < iGSz) (hns : 0 < ns)
    (hl : inp.length = iGSz * ns) (hs : iGSz * ns < 2 ^ 64) (ho : st.oGSz * ns < 2 ^ 64) :
    toAngle zero st gNum iGSz ns inp = .ub := by
  refine toAngle_ub zero st gNum iGSz ns inp 0 0 ho1 hns hl hs ho hi fun out => ?_
  unfold angleCell readAt
  cases st.vtrc[add64 (mul64 gNum st.vNs) (min (st.vidx 0) st.vNs)]? with
  | none => rfl
  | some v =>
    simp only [Res.ok_bind]
    unfold binOf
    rw [if_pos h0]
    rfl

example : toAngle (0 : Int) { demoRadon with vBin := 0 } 0 3 2 [1, 2, 3, 4, 5, 6] = .ub := by decide +kernel

end Verif.Props
