import Verif.Util.Release
import Verif.Props.Release
import Verif.Props.DistVec
import Verif.Props.Sglobal
import Verif.Props.SortMain

/-!
# C106: decompositions, the distributed vector and the programs in the default build
-/

namespace Verif.Release
open Verif.Decomp Verif.Util

theorem Keeps.elim {A : Type} {c : Prop} [Decidable c] {a b : Res A} (h : c → Keeps a b) :
    Keeps (if c then a else .abort) b := by
  by_cases hc : c
  · rw [if_pos hc]; exact h hc
  · rw [if_neg hc]; exact fun h => absurd rfl h

theorem decomposition_keeps (s n r : Nat) : Keeps (blockDecomposition s n r) (blockDecompositionR s n r) := by
  unfold blockDecomposition blockDecompositionR
  exact Keeps.elim fun h => by rw [if_pos h]; exact Keeps.refl _

theorem location_keeps (s n i : Nat) : Keeps (blockDecompositionLocation s n i) (locationR s n i) := by
  unfold blockDecompositionLocation locationR
  exact Keeps.elim fun h => by rw [if_pos h.2]; exact Keeps.refl _

theorem locationR_eq {s n i : Nat} (hn : 0 < n) (hi : i < s) (h64 : s < 2 ^ 64) :
    locationR s n i = blockDecompositionLocation s n i := by
  obtain ⟨l, h, _⟩ := location_eq hn hi h64
  exact location_keeps s n i (by rw [h]; exact fun e => nomatch e)

theorem blockDecomp_keeps (s b n r o : Nat) : Keeps (blockDecomp s b n r o) (blockDecompR s b n r o) := by
  unfold blockDecomp blockDecompR
  by_cases hb : b = 0
  · rw [if_pos hb, if_pos hb]; exact Keeps.refl _
  · rw [if_neg hb, if_neg hb]
    exact Keeps.check fun _ => Keeps.bind (decomposition_keeps _ _ _) fun _ => Keeps.refl _

theorem lob_keeps (s n r : Nat) : Keeps (lobdecompose s n r) (lobdecomposeR s n r) := by
  unfold lobdecompose lobdecomposeR
  dsimp only
  cases (lobShares s n).max? with
  | none => exact Keeps.refl _
  | some b => exact Keeps.check fun _ => Keeps.refl _

section
variable {T : Type}

theorem set_keeps (v : DistVec T) (rank i : Nat) (x : T) (hN : 0 < v.numRanks) (h64 : v.globalSize < 2 ^ 64) :
    Keeps (v.set rank i x) (setR v rank i x) := by
  unfold DistVec.set setR
  by_cases hi : i > v.globalSize
  · rw [if_pos hi, if_pos hi]; exact Keeps.refl _
  · rw [if_neg hi, if_neg hi]
    by_cases hlt : i < v.globalSize
    · obtain ⟨l, h, hl, _⟩ := location_eq hN hlt h64
      rw [locationR_eq hN hlt h64, h, Res.ok_bind, Res.ok_bind, if_neg (show ¬ ¬ l.rank < v.numRanks by omega)]
      exact Keeps.check fun _ => Keeps.refl _
    · rw [Verif.Decomp.C02_out_of_range _ _ _ (by omega)]
      exact fun h => absurd rfl h

theorem get_keeps (v : DistVec T) (dflt : T) (rank i : Nat) (hN : 0 < v.numRanks) (h64 : v.globalSize < 2 ^ 64) :
    Keeps (v.get dflt rank i) (getR v dflt rank i) := by
  unfold DistVec.get getR
  by_cases hi : i > v.globalSize
  · rw [if_pos hi, if_pos hi]; exact Keeps.refl _
  · rw [if_neg hi, if_neg hi]
    by_cases hlt : i < v.globalSize
    · obtain ⟨l, h, hl, _⟩ := location_eq hN hlt h64
      rw [locationR_eq hN hlt h64, h, Res.ok_bind, Res.ok_bind, if_neg (show ¬ ¬ l.rank < v.numRanks by omega)]
      exact Keeps.check fun _ => Keeps.refl _
    · rw [Verif.Decomp.C02_out_of_range _ _ _ (by omega)]
      exact fun h => absurd rfl h

/-- **C106** (same results, library). A call that does not end in a failed assertion gives the same result in the default build:
the decompositions, the distributed vector and the corners of a filter. -/
theorem C106_same :
    (∀ s n r, blockDecomposition s n r ≠ .abort → blockDecompositionR s n r = blockDecomposition s n r) ∧
    (∀ s n i, blockDecompositionLocation s n i ≠ .abort → locationR s n i = blockDecompositionLocation s n i) ∧
    (∀ s b n r o, blockDecomp s b n r o ≠ .abort → blockDecompR s b n r o = blockDecomp s b n r o) ∧
    (∀ s n r, lobdecompose s n r ≠ .abort → lobdecomposeR s n r = lobdecompose s n r) ∧
    (∀ (T : Type) (v : DistVec T) (dflt : T) (rank i : Nat) (x : T), 0 < v.numRanks → v.globalSize < 2 ^ 64 →
      (v.set rank i x ≠ .abort → setR v rank i x = v.set rank i x) ∧
      (v.get dflt rank i ≠ .abort → getR v dflt rank i = v.get dflt rank i)) ∧
    ∀ (V : Type) (c : List V), setCorners c ≠ .abort → setCornersR c = setCorners c := by
  refine ⟨decomposition_keeps, location_keeps, blockDecomp_keeps, lob_keeps, ?_, ?_⟩
  · exact fun T v dflt rank i x hN h64 => ⟨set_keeps v rank i x hN h64, get_keeps v dflt rank i hN h64⟩
  · intro V c
    unfold setCorners setCornersR
    exact Keeps.check fun _ => Keeps.refl _

/-- Calls that succeed. -/
example : blockDecomp 26 8 2 1 3 ≠ .abort ∧ lobdecompose 10 3 2 ≠ .abort ∧ blockDecompositionLocation 5 2 4 ≠ .abort ∧
    setCorners [3, 8] ≠ .abort := by decide

/-! ### The distributed vector -/

/-- Calls one after the other in the default build: the values returned. -/
def runVecR (dflt : T) : List (VecOp T) → DistVec T → Res (List T)
  | [], _ => .ok []
  | .set r i x :: ops, v => do
    let v ← setR v r i x
    runVecR dflt ops v
  | .get r i :: ops, v => do
    let x ← getR v dflt r i
    let l ← runVecR dflt ops v
    .ok (x :: l)

/-- A call on process 1, whatever process it was on. -/
def onOne : VecOp T → VecOp T
  | .set _ i x => .set 1 i x
  | .get _ i => .get 1 i

theorem runArray_onOne (ops : List (VecOp T)) : ∀ A : Nat → T, runArray (ops.map onOne) A = runArray ops A := by
  induction ops with
  | nil => intro A; rfl
  | cons o ops ih =>
    intro A
    cases o with
    | set r i x => exact ih _
    | get r i => show A i :: _ = A i :: _; rw [ih]

theorem set_sizes (v v' : DistVec T) (rank i : Nat) (x : T) (h : v.set rank i x = .ok v') :
    v'.numRanks = v.numRanks ∧ v'.globalSize = v.globalSize := by
  unfold DistVec.set at h
  by_cases hi : i > v.globalSize
  · rw [if_pos hi] at h; cases h; exact ⟨rfl, rfl⟩
  · rw [if_neg hi] at h
    cases hl : blockDecompositionLocation v.globalSize v.numRanks i with
    | ok l =>
      rw [hl, Res.ok_bind] at h
      split at h
      · cases h
      · split at h
        · cases h
        · cases h; exact ⟨rfl, rfl⟩
    | abort => rw [hl] at h; cases h
    | ub => rw [hl] at h; cases h

theorem runVec_keeps (dflt : T) : ∀ (ops : List (VecOp T)) (v : DistVec T), 0 < v.numRanks → v.globalSize < 2 ^ 64 →
    ∀ out, runVec dflt (ops.map onOne) v = .ok out → runVecR dflt ops v = .ok out := by
  intro ops
  induction ops with
  | nil => intro v _ _ out h; exact h
  | cons o ops ih =>
    intro v hN h64 out h
    cases o with
    | set r i x =>
      have h : (v.set 1 i x >>= fun v => runVec dflt (ops.map onOne) v) = .ok out := h
      show (setR v r i x >>= fun v => runVecR dflt ops v) = .ok out
      cases hs : v.set 1 i x with
      | ok v' =>
        rw [hs, Res.ok_bind] at h
        obtain ⟨e1, e2⟩ := set_sizes v v' 1 i x hs
        have hk : setR v r i x = .ok v' := by
          have := set_keeps v 1 i x hN h64 (by rw [hs]; exact fun e => nomatch e)
          rw [hs] at this
          exact this
        rw [hk, Res.ok_bind]
        exact ih v' (by omega) (by omega) out h
      | abort => rw [hs] at h; cases h
      | ub => rw [hs] at h; cases h
    | get r i =>
      have h : (v.get dflt 1 i >>= fun x => runVec dflt (ops.map onOne) v >>= fun l => .ok (x :: l)) = .ok out := h
      show (getR v dflt r i >>= fun x => runVecR dflt ops v >>= fun l => .ok (x :: l)) = .ok out
      cases hs : v.get dflt 1 i with
      | ok x =>
        have hk : getR v dflt r i = .ok x := by
          have := get_keeps v dflt 1 i hN h64 (by rw [hs]; exact fun e => nomatch e)
          rw [hs] at this
          exact this
        rw [hs, Res.ok_bind] at h
        rw [hk, Res.ok_bind]
        cases hr : runVec dflt (ops.map onOne) v with
        | ok l => rw [hr, Res.ok_bind] at h; rw [ih v hN h64 l hr, Res.ok_bind]; exact h
        | abort => rw [hr] at h; cases h
        | ub => rw [hr] at h; cases h
      | abort => rw [hs] at h; cases h
      | ub => rw [hs] at h; cases h

/-- **C106** (distributed vector). In the default build the distributed vector is one array for calls on every process, the first
one too, as long as they touch allocated elements (all elements of one byte: `C47_bytes`). -/
theorem C106_array (globalSize N tSize : Nat) (init : Nat → Nat → T) (dflt : T) (hN : 1 ≤ N)
    (h64 : globalSize < 2 ^ 64) (ht : 1 ≤ tSize) :
    ∃ A : Nat → T, ∀ ops : List (VecOp T), (∀ o ∈ ops, Allocated globalSize N tSize o.index) →
      runVecR dflt ops (DistVec.new globalSize N tSize init) = .ok (runArray ops A) := by
  obtain ⟨A, h⟩ := C47_array_partial globalSize N tSize init dflt hN h64 ht
  refine ⟨A, fun ops hops => ?_⟩
  rw [← runArray_onOne]
  refine runVec_keeps dflt ops (DistVec.new globalSize N tSize init) (show 0 < N from hN) (show globalSize < 2 ^ 64 from h64) _
    (h _ ?_)
  intro o ho
  obtain ⟨p, hp, rfl⟩ := List.mem_map.1 ho
  have := hops p hp
  cases p <;> exact ⟨Nat.le_refl _, this⟩

/-- Process 0 sets and process 1 gets. -/
example : runVecR 0 [.set 0 0 7, .set 0 4 9, .get 1 0, .get 0 4] (DistVec.new 5 2 1 fun _ _ => 0) = .ok [7, 9] := by decide

theorem location_end (s n : Nat) (hn : 0 < n) (h64 : s < 2 ^ 63) (hn64 : n < 2 ^ 63) :
    locationR s n s = .ub ∨ ∃ l, locationR s n s = .ok l ∧ l.rank = n := by
  have hdm := Nat.div_add_mod s n
  have hmod := Nat.mod_lt s hn
  unfold locationR
  rw [if_pos hn]
  dsimp only
  generalize s / n = c at *
  generalize s % n = m at *
  have hcs : c ≤ s := by
    have : 1 * c ≤ n * c := Nat.mul_le_mul_right _ hn
    omega
  have hcm : (c + 1) * m ≤ s := by
    have h1 : c * m ≤ c * n := Nat.mul_le_mul_left _ (by omega)
    have h2 : (c + 1) * m = c * m + m := by ring
    rw [Nat.mul_comm n] at hdm
    omega
  rw [add64_eq (by omega), mul64_eq (by omega), if_neg (by omega), sub64_eq (by omega) (by omega)]
  by_cases hc : c = 0
  · left; rw [if_pos hc]
  · right
    rw [if_neg hc]
    have e : (s - (c + 1) * m) / c = n - m := by
      have : s - (c + 1) * m = c * (n - m) := by
        have h1 : c * (n - m) = c * n - c * m := Nat.mul_sub _ _ _
        have h2 : (c + 1) * m = c * m + m := by ring
        have h3 : n * c = c * n := Nat.mul_comm _ _
        have h4 : c * m ≤ c * n := Nat.mul_le_mul_left _ (by omega)
        omega
      rw [this, Nat.mul_div_cancel_left _ (by omega)]
    rw [e, add64_eq (by omega)]
    exact ⟨_, rfl, by show n - m + m = n; omega⟩

theorem end_ub (v : DistVec T) (rank : Nat) (dflt x : T) (hN : 0 < v.numRanks)
    (h64 : v.globalSize < 2 ^ 63) (hN64 : v.numRanks < 2 ^ 63) :
    setR v rank v.globalSize x = .ub ∧ getR v dflt rank v.globalSize = .ub := by
  have key := location_end v.globalSize v.numRanks hN h64 hN64
  constructor
  · unfold setR
    rw [if_neg (by omega)]
    rcases key with h | ⟨l, h, hl⟩
    · rw [h]; rfl
    · rw [h, Res.ok_bind, if_pos (by omega)]
  · unfold getR
    rw [if_neg (by omega)]
    rcases key with h | ⟨l, h, hl⟩
    · rw [h]; rfl
    · rw [h, Res.ok_bind, if_pos (by omega)]

/-- **C106** fails for the index behind the last element, on every process: in the default build it is not ignored as all larger
ones are, but taken to be on a process that does not exist, or divided by zero. -/
theorem C106_end_refuted (globalSize N tSize rank : Nat) (init : Nat → Nat → T) (dflt x : T) (hN : 1 ≤ N)
    (h64 : globalSize < 2 ^ 63) (hN64 : N < 2 ^ 63) :
    setR (DistVec.new globalSize N tSize init) rank globalSize x = .ub ∧
    getR (DistVec.new globalSize N tSize init) dflt rank globalSize = .ub := by
  exact end_ub (DistVec.new globalSize N tSize init) rank dflt x hN h64 hN64

example : locationR 5 2 5 = .ok ⟨2, 0⟩ ∧ locationR 1 2 1 = .ub := by decide

end

/-! ### Decompositions of the tools -/

/-- **C106** fails for the decomposition into whole blocks: in the default build the share of the first process of two or more of a
range inside one block starts with the range and is longer, for blocks of any size. -/
theorem C106_inside_refuted (sz bsz o N : Nat) (hb : 2 ≤ bsz) (hb60 : bsz ≤ 2 ^ 60) (hN : 2 ≤ N) (hN' : N * bsz ≤ 2 ^ 64)
    (hq : (o + sz) / bsz = o / bsz) (h64 : o + sz < 2 ^ 64) :
    ∃ d, blockDecompR sz bsz N 0 o = .ok d ∧ d.globalOffset = 0 ∧ sz < d.localSize := by
  have h1 := Nat.div_add_mod o bsz
  have h2 := Nat.div_add_mod (o + sz) bsz
  have he := Nat.mod_lt o (show 0 < bsz by omega)
  have hre := Nat.mod_lt (o + sz) (show 0 < bsz by omega)
  rw [hq] at h2
  generalize o / bsz = q at *
  obtain ⟨M, hM⟩ : ∃ M, 2 ^ 64 / bsz = M := ⟨_, rfl⟩
  have hMN : N ≤ M := by rw [← hM, Nat.le_div_iff_mul_le (by omega)]; exact hN'
  have hMb : M * bsz ≤ 2 ^ 64 := by rw [← hM]; exact Nat.div_mul_le_self _ _
  have hM64 : M * 2 ≤ 2 ^ 64 := (Nat.mul_le_mul_left M hb).trans hMb
  have hin : sub64 (sub64 sz (bsz - o % bsz)) ((o + sz) % bsz) = 2 ^ 64 - bsz := by
    rw [sub64_wrap (a := sz) (by omega) (by omega), sub64_eq (by omega) (by omega)]
    omega
  have hinv : (2 ^ 64 - bsz) / bsz = M - 1 := by
    rw [← hM]
    have := Nat.sub_mul_div (2 ^ 64) bsz 1
    rwa [Nat.mul_one] at this
  have hdec : blockDecompositionR (M + 1) N 0 = .ok ⟨off (M + 1) N 0, Verif.Decomp.sz (M + 1) N 0⟩ := by
    have h := blockDecomposition_eq (range := M + 1) (n := N) (r := 0) (by omega) (by omega) (by omega)
    rw [← h]
    exact decomposition_keeps _ _ _ (by rw [h]; exact fun e => nomatch e)
  have hs2 : 2 ≤ Verif.Decomp.sz (M + 1) N 0 := by
    unfold Verif.Decomp.sz
    have : 1 ≤ (M + 1) / N := by rw [Nat.one_le_div_iff (by omega)]; omega
    by_cases h1' : (M + 1) / N = 1
    · have := Nat.div_add_mod (M + 1) N
      rw [h1'] at this
      rw [if_pos (by omega)]
      omega
    · omega
  have hsM : 2 * Verif.Decomp.sz (M + 1) N 0 ≤ M + 3 := by
    unfold Verif.Decomp.sz
    have := Nat.div_mul_le_self (M + 1) N
    have h2 : (M + 1) / N * 2 ≤ (M + 1) / N * N := Nat.mul_le_mul_left _ hN
    split <;> omega
  unfold blockDecompR
  rw [if_neg (by omega)]
  dsimp only
  rw [sub64_eq (a := bsz) (b := o % bsz) he.le (by omega), add64_eq (a := o) (by omega), hin, hinv, add64_eq (by omega),
    show M - 1 + 2 = M + 1 by omega, hdec, Res.ok_bind]
  dsimp only
  generalize Verif.Decomp.sz (M + 1) N 0 = s at *
  have hs64 : 2 * (s * bsz) ≤ 2 ^ 64 + 3 * bsz := by
    have := Nat.mul_le_mul_right bsz hsM
    rw [Nat.add_mul, Nat.mul_assoc] at this
    omega
  have hs2b : 2 * bsz ≤ s * bsz := Nat.mul_le_mul_right _ hs2
  rw [mul64_eq (a := s) (by omega), off_zero, sub64_eq (a := bsz) (b := bsz - o % bsz) (by omega) (by omega),
    sub64_eq (a := bsz) (b := (o + sz) % bsz) (by omega) (by omega), if_neg (by omega)]
  simp only [↓reduceIte]
  rw [sub64_eq (a := s * bsz) (by omega) (by omega), show mul64 0 bsz = 0 by simp [mul64], add64_eq (by omega), if_pos (by omega),
    sub64_eq (by omega) (by omega)]
  refine ⟨_, rfl, rfl, ?_⟩
  show sz < s * bsz - (bsz - (bsz - o % bsz)) - (bsz - (o + sz) % bsz)
  omega

/-- A range of one byte in a block of three, two processes. -/
example : blockDecomp 1 3 2 0 0 = .abort ∧ ∃ d, blockDecompR 1 3 2 0 0 = .ok d ∧ 1 < d.localSize := by
  refine ⟨by decide, ?_⟩
  obtain ⟨d, h1, _, h3⟩ := C106_inside_refuted 1 3 0 2 (by decide) (by decide) (by decide) (by decide) (by decide) (by decide)
  exact ⟨d, h1, h3⟩

/-- **C106** fails for the uneven decomposition of sixteen thousand million elements and more, on every number of processes from two
on: in the default build the sums of the shares are kept in 32 bits, and the last element is in the share of no process. (Sizes up
to those for which the model of `double` is exact, enough elements for the number of processes.) -/
theorem C106_large_refuted (sz N : Nat) (hN : 2 ≤ N) (h : (N - 1) * (N * (N + 1)) ≤ 4 * sz) (h34 : 2 ^ 34 ≤ sz)
    (h52 : sz * N < 2 ^ 52) :
    ∀ r, r < N → lobdecompose sz N r = .abort ∧ ∃ o l b, lobdecomposeR sz N r = .ok (o, l, b) ∧ o + l ≤ sz - 1 := by
  have hsz : sz < 2 ^ 52 := lt_of_le_of_lt (Nat.le_mul_of_pos_right sz (by omega)) h52
  obtain ⟨T, hT⟩ : ∃ T, N * (N + 1) / 2 = T := ⟨_, rfl⟩
  have h2T : N * (N + 1) = 2 * T := by
    have := Nat.even_iff.1 (Nat.even_mul_succ_self N)
    omega
  have hT1 : 3 ≤ T := by
    have : 2 * 3 ≤ N * (N + 1) := Nat.mul_le_mul hN (by omega)
    omega
  have hf : lobShare sz N 0 < 2 ^ 63 := by
    unfold lobShare
    rw [hT, Nat.div_lt_iff_lt_mul (by omega)]
    have : 2 ^ 54 * (2 * T) ≤ 2 ^ 63 * (2 * T) := Nat.mul_le_mul_right _ (by norm_num)
    omega
  have hsum := lobShares_sum sz N (by omega) (by omega) (lob_enough (by omega) h) hf
  have hlen := lobShares_length sz N
  have hlast : (lobShares sz N).getD (N - 1) 0 = lobShare sz N (N - 1) := by
    unfold lobShares
    rw [List.getD_eq_getElem?_getD, List.getElem?_map, List.getElem?_range (by omega)]
    simp only [Option.map_some, Option.getD_some]
    rw [if_neg (by omega)]
  have hl1 : 1 ≤ lobShare sz N (N - 1) := by
    unfold lobShare
    rw [hT, Nat.one_le_div_iff (by omega), Nat.sub_add_cancel (by omega)]
    have h1 : 1 * (N * (N + 1)) ≤ (N - 1) * (N * (N + 1)) := Nat.mul_le_mul_right _ (by omega)
    have h2 : sz * 2 ≤ sz * N := Nat.mul_le_mul_left _ hN
    omega
  have hl2 : 3 * lobShare sz N (N - 1) ≤ 2 * sz + 1 := by
    have h1 : lobShare sz N (N - 1) * (2 * T) ≤ 2 * (sz * N) + T := by
      unfold lobShare
      rw [hT, Nat.sub_add_cancel (by omega)]
      exact Nat.div_mul_le_self _ _
    generalize lobShare sz N (N - 1) = a at *
    have h2 : N * ((N + 1) * (2 * a - 1)) ≤ N * (4 * sz) := by
      obtain ⟨a', rfl⟩ : ∃ a', a = a' + 1 := ⟨a - 1, by omega⟩
      have e1 : N * ((N + 1) * (2 * (a' + 1) - 1)) = N * (N + 1) * (2 * a' + 1) := by
        rw [show 2 * (a' + 1) - 1 = 2 * a' + 1 by omega]; ring
      have e2 : N * (4 * sz) = 4 * (sz * N) := by ring
      have e3 : 2 * T * (2 * a' + 1) = 4 * (T * a') + 2 * T := by ring
      have e4 : (a' + 1) * (2 * T) = 2 * (T * a') + 2 * T := by ring
      rw [e4] at h1
      rw [e1, e2, h2T, e3]
      omega
    have h3 : (N + 1) * (2 * a - 1) ≤ 4 * sz := Nat.le_of_mul_le_mul_left h2 (by omega)
    have h4 : 3 * (2 * a - 1) ≤ (N + 1) * (2 * a - 1) := Nat.mul_le_mul_right _ (by omega)
    omega
  rw [← hlast] at hl1 hl2
  intro r hr
  refine ⟨C60_large_refuted sz N r (by omega) (by omega), ?_⟩
  unfold lobdecomposeR
  dsimp only
  generalize lobShares sz N = l at *
  obtain ⟨b, hb⟩ : ∃ b, l.max? = some b := by
    cases hm : l.max? with
    | none => rw [List.max?_eq_none_iff] at hm; rw [hm] at hlen; simp at hlen; omega
    | some b => exact ⟨b, rfl⟩
  have hg : ∀ r, r < N → l[r]? = some (l.getD r 0) := fun r hr => by
    rw [List.getD_eq_getElem?_getD, List.getElem?_eq_getElem (by omega)]; rfl
  have htake : ∀ r, r < N → (l.take (r + 1)).sum = (l.take r).sum + l.getD r 0 := by
    intro r hr
    rw [List.take_add_one, hg r hr]
    simp
  have hall : (l.take (N - 1)).sum + l.getD (N - 1) 0 = sz := by
    rw [← htake (N - 1) (by omega), Nat.sub_add_cancel (by omega), List.take_of_length_le (by omega), hsum]
  rw [hb, hg r hr]
  dsimp only
  refine ⟨_, _, _, rfl, ?_⟩
  by_cases hrl : r = N - 1
  · subst hrl
    rw [if_neg (by omega), accumulate32_eq]
    have : (l.take (N - 1)).sum % 2 ^ 32 < 2 ^ 32 := Nat.mod_lt _ (by norm_num)
    omega
  · have h1 : (if r = 0 then 0 else accumulate32 (l.take r)) ≤ (l.take r).sum := by
      split
      · omega
      · rw [accumulate32_eq]; exact Nat.mod_le _ _
    have h2 : (l.take (r + 1)).sum ≤ (l.take (N - 1)).sum := by
      have := take_sum_le (l.take (N - 1)) (r + 1)
      rwa [List.take_take, Nat.min_eq_left (by omega)] at this
    rw [htake r hr] at h2
    omega

example : (2 - 1) * (2 * (2 + 1)) ≤ 4 * 2 ^ 34 ∧ 2 ^ 34 * 2 < 2 ^ 52 ∧
    lobdecomposeR (2 ^ 34) 2 1 = .ok (1431655765, 11453246123, 11453246123) := by decide

/-! ### Corners -/

/-- **C106** fails for a low or high pass given with its one corner: with assertions the program ends, in the default build a corner
behind the last is read. More than two corners are taken there, and those after the second ignored. -/
theorem C106_corner_refuted {V : Type} (a b c : V) (l : List V) :
    setCorners [a] = .abort ∧ setCornersR [a] = .ub ∧
    setCorners (a :: b :: c :: l) = .abort ∧ setCornersR (a :: b :: c :: l) = .ok (a, b) := by
  refine ⟨rfl, rfl, ?_, rfl⟩
  unfold setCorners
  rw [if_pos (by simp)]

/-! ### Programs -/

section
open Verif.Files Verif.Params Verif.Rules Verif.Flow Verif.FP Verif.Sort Verif.ConcatTool
open Verif.Life (Name isSegy defaultMsg)
open Verif.SortMain (sortParse verifyParse writeGroups sortMain verifyMain Enough Sorted)

variable {F : Type}

/-- **C106** (same results, programs). A run of `concatenate`, `sort` or `verifysort` that does not end in a failed assertion or
another error does the same in the default build. -/
theorem C106_programs (ops : FloatOps F) (cv : Conv F (BitVec 64)) (zero : F) (idx : List Nat → List Nat)
    (sched : List Chunk → List Chunk) (P : Nat) (code : ℚ → Int) (glob : Name → List Name) (answer : Option Char)
    (o : OffFn) (srt : (Rec → Rec → Bool) → List Rec → List Rec) (srtp : List (Nat × Nat) → List (Nat × Nat)) (dflt : Rec)
    (fuel : Nat) (argv : List Name) (w : World) :
    (main ops cv zero idx sched P code glob answer argv w ≠ .abort →
      concatMainR ops cv zero idx sched P code glob answer argv w = main ops cv zero idx sched P code glob answer argv w) ∧
    (sortMain o srt srtp dflt fuel idx sched P code glob argv w ≠ .abort →
      sortMainR o srt srtp dflt fuel idx sched P code glob argv w = sortMain o srt srtp dflt fuel idx sched P code glob argv w) ∧
    (verifyMain o P argv w ≠ .abort → verifyMainR o P argv w = verifyMain o P argv w) := by
  refine ⟨?_, ?_, ?_⟩
  · unfold main concatMainR
    exact Keeps.check fun _ => Keeps.refl _
  · unfold sortMain sortMainR
    exact Keeps.bind (Keeps.refl _) fun _ => Keeps.check fun _ => Keeps.refl _
  · unfold verifyMain verifyMainR
    exact Keeps.bind (Keeps.refl _) fun _ => Keeps.check fun _ => Keeps.refl _

variable {w : World} {ins : List Name} {disk : Name → Disk} {info : Name → Info}

/-- **C106** fails for `concatenate` without an output prefix: with assertions it ends; in the default build it writes the outputs
under names made of the samples and interval only, `.segy` for a file alone in its kind. -/
theorem C106_concat_refuted (ops : FloatOps F) (cv : Conv F (BitVec 64)) (hcv : ∀ v, cv.toT v = v) (zero : F)
    (idx : List Nat → List Nat) (hidx : IsSortIndex idx) (sched : List Chunk → List Chunk) (hs : ∀ l, (sched l).Perm l)
    (P : Nat) (hP : 0 < P) (code : ℚ → Int) (hcode : Function.Injective code) (glob : Name → List Name) (answer : Option Char)
    (argv : List Name) (o : Opts) (ho : parse argv = o) (h2 : o.outprefix = []) (h3 : glob o.pattern ≠ [])
    (hmsg : ∀ c ∈ o.msg, c.toNat < 256) (hins : ins = (glob o.pattern).filter isSegy) (h : Fit w ins disk info)
    (hyes : o.prompt = true → answer = some 'y')
    (hone : ∀ n ∈ ins, ∀ m ∈ ins, (ConcatTool.alike info ins n).length = 1 → (ConcatTool.alike info ins m).length = 1 → n = m)
    (hno : ∀ n ∈ ins, target [] info ins n ∉ ins) :
    main ops cv zero idx sched P code glob answer argv w = .abort ∧
    ∃ w', concatMainR ops cv zero idx sched P code glob answer argv w = .ok w' ∧
      (∀ n ∈ ins, ∃ d, w' (target [] info ins n) = some d ∧ Joined (o.msg.map Char.toNat) ins disk info n d) ∧
      ∀ x, (∀ n ∈ ins, x ≠ target [] info ins n) → w' x = w x := by
  constructor
  · unfold main
    simp only [ho]
    rw [if_pos (.inr h2)]
  have hm : ∀ x ∈ o.msg.map Char.toNat, x < 256 := by
    intro x hx
    obtain ⟨c, hc, rfl⟩ := List.mem_map.1 hx
    exact hmsg c hc
  have hj : ∀ n ∈ ins, ∀ m ∈ ins, ∀ d, kind (info n) = kind (info m) →
      Joined (o.msg.map Char.toNat) ins disk info n d → Joined (o.msg.map Char.toNat) ins disk info m d := by
    intro n _ m _ d e j
    have e1 : (info n).ns = (info m).ns := congrArg Prod.fst e
    have e2 : (info n).inc = (info m).inc := congrArg Prod.snd e
    have ea : ConcatTool.alike info ins n = ConcatTool.alike info ins m := by unfold ConcatTool.alike; rw [e1, e2]
    have et : total info ins n = total info ins m := by unfold total; rw [ea]
    exact ⟨by rw [← e1, ← e2, ← et]; exact j.opens, by rw [← e1, ← et]; exact j.size,
      by rw [← e1, ← et, ← ea]; exact j.records⟩
  have hmain : concatMainR ops cv zero idx sched P code glob answer argv w =
      (writeAll ops cv zero idx sched P code [] (o.msg.map Char.toNat) ins (ins.map disk) (ins.map info)
        (kinds (ins.map info)) w >>=
        writeAll ops cv zero idx sched P code [] (o.msg.map Char.toNat) ins (ins.map disk) (ins.map info)
          (kinds (ins.map info))) := by
    unfold concatMainR
    simp only [ho]
    rw [if_neg h3, ← hins, h.collected.1, Res.ok_bind, h.collected.2, Res.ok_bind, if_neg (by tauto), h2]
  rw [hmain]
  obtain ⟨w', e, g, off⟩ := passes ops cv zero idx sched P code [] (o.msg.map Char.toNat) h hone hno
    (fun k d => ∀ n ∈ ins, kind (info n) = k → Joined (o.msg.map Char.toNat) ins disk info n d)
    (fun n hn out => by
      obtain ⟨out', e, j⟩ := group_out ops cv hcv zero idx hidx sched hs P hP code hcode _ hm h hn out
      exact ⟨out', e, fun m hm' em => hj n hn m hm' out' em.symm j⟩)
  exact ⟨w', e, fun n hn => by
    obtain ⟨d, e1, e2⟩ := g n hn
    exact ⟨d, e1, e2 n hn rfl⟩, off⟩

theorem ex_other (n : Name) : target [] exInfo exIns n ∉ exIns := by
  intro h
  have e : (target [] exInfo exIns n).head? ≠ some 'a' ∧ (target [] exInfo exIns n).head? ≠ some 'b' ∧
      (target [] exInfo exIns n).head? ≠ some 'c' := by
    unfold target
    split
    · decide
    · rw [exInfo_ns]
      generalize fixed6 _ = x
      split
      · rw [show ([] ++ decimal 1 ++ ['_'] ++ x ++ ".segy".toList : Name).head? = some '1' from rfl]; decide
      · split
        · rw [show ([] ++ decimal 1 ++ ['_'] ++ x ++ ".segy".toList : Name).head? = some '1' from rfl]; decide
        · rw [show ([] ++ decimal 2 ++ ['_'] ++ x ++ ".segy".toList : Name).head? = some '2' from rfl]; decide
  rcases List.mem_cons.1 h with h | h
  · rw [h] at e; exact e.1 rfl
  · rcases List.mem_cons.1 h with h | h
    · rw [h] at e; exact e.2.1 rfl
    · rw [List.mem_singleton.1 h] at e; exact e.2.2 rfl

/-- Without a prefix the trace of `c.segy` is in `.segy`. -/
example : ∃ w' e, concatMainR exOps exConvT 0 insIndex List.reverse 2 (fun q : ℚ => (Encodable.encode q : Int)) exGlob none
      ["-i".toList, "*".toList] exWorld = .ok w' ∧ w' ".segy".toList = some e ∧
    records e 2 1 = records (kFile true 1 9#8) 2 1 := by
  obtain ⟨_, w', h1, h2, h3⟩ := C106_concat_refuted exOps exConvT (fun _ => rfl) 0 insIndex insIndex_sorts List.reverse
    (fun l => List.reverse_perm l) 2 (by omega) _ exCode exGlob none ["-i".toList, "*".toList]
    ⟨"*".toList, [], "Concatenated with ExSeisPIOL".toList, false⟩ (by decide) rfl (by decide) (by decide)
    (ins := exIns) (by decide) (exFit exThere (by decide)) (fun h => by cases h) exOne (fun n _ => ex_other n)
  obtain ⟨e, e1, e2⟩ := h2 "c.segy".toList (by decide)
  have tc : total exInfo exIns "c.segy".toList = 1 := by unfold total; rw [exAlike_c]; decide
  have nc : target [] exInfo exIns "c.segy".toList = ".segy".toList := by
    rw [target, exAlike_c, if_pos (by decide)]
    decide
  refine ⟨w', e, h1, by rw [← nc, e1], ?_⟩
  have := e2.records
  rw [tc, exAlike_c, List.flatMap_cons, List.flatMap_nil, List.append_nil] at this
  exact this

/-- **C106** fails for `sort` without an output prefix: with assertions it ends; in the default build the sorted files are written
under names made of the samples and interval only. -/
theorem C106_sort_refuted (o : OffFn) (srt : (Rec → Rec → Bool) → List Rec → List Rec)
    (srtp : List (Nat × Nat) → List (Nat × Nat)) (hsrtp : IsSort pairLt srtp) (dflt : Rec) (idx : List Nat → List Nat)
    (hidx : IsSortIndex idx) (sched : List Chunk → List Chunk) (hs : ∀ l, (sched l).Perm l) (P : Nat) (hP : 0 < P)
    (code : ℚ → Int) (hcode : Function.Injective code) (glob : Name → List Name) (argv : List Name) (a : Name) (ty : Nat)
    (hargv : sortParse argv = .ok ⟨a, [], ty⟩) (hty : ty < 2 ^ 64) (hglob : glob a ≠ [])
    (hsrt : IsSort (fun a b => getComp o ty a.tr b.tr) (srt fun a b => getComp o ty a.tr b.tr))
    (hins : ins = (glob a).filter isSegy) (hne : ins ≠ []) (h : Fit w ins disk info)
    (hone : ∀ n ∈ ins, ∀ m ∈ ins, (ConcatTool.alike info ins n).length = 1 → (ConcatTool.alike info ins m).length = 1 → n = m)
    (hno : ∀ n ∈ ins, target [] info ins n ∉ ins)
    (hnum : ∀ n ∈ ins, (total info ins n + 1) * (ConcatTool.alike info ins n).length < 2 ^ 63)
    (hmany : ∀ n ∈ ins, Enough P info (ConcatTool.alike info ins n)) :
    (∀ fuel, sortMain o srt srtp dflt fuel idx sched P code glob argv w = .abort) ∧
    ∃ n0, ∀ fuel, n0 ≤ fuel → ∃ w', sortMainR o srt srtp dflt fuel idx sched P code glob argv w = .ok w' ∧
      (∀ n ∈ ins, ∃ d src, w' (target [] info ins n) = some d ∧
        Sorted o ty disk info (ConcatTool.alike info ins n) (info n).ns (total info ins n) (info n).inc d src) ∧
      ∀ x, (∀ n ∈ ins, x ≠ target [] info ins n) → w' x = w x := by
  constructor
  · intro fuel
    unfold sortMain
    rw [hargv, Res.ok_bind]
    dsimp only
    rw [if_pos (.inr rfl)]
  obtain ⟨n0, hc⟩ := Verif.SortMain.sort_core o srt srtp hsrtp dflt idx hidx sched hs P hP code hcode [] ty hty hsrt h hone hno
    hnum hmany
  refine ⟨n0, fun fuel hf => ?_⟩
  obtain ⟨w', e, g1, g2⟩ := hc fuel hf
  refine ⟨w', ?_, fun n hn => ?_, g2⟩
  · unfold sortMainR
    rw [hargv, Res.ok_bind]
    dsimp only
    rw [if_neg hglob, ← hins, h.collected.1, Res.ok_bind, h.collected.2, Res.ok_bind, if_neg (by simpa using hne)]
    exact e
  · obtain ⟨d, src, e1, e2, _⟩ := g1 n hn
    exact ⟨d, src, e1, e2⟩

/-- Two files sorted without a prefix. -/
example : ∃ n0, ∀ fuel, n0 ≤ fuel → ∃ w', sortMainR Sort.off (fun c => keySort c) (keySort pairLt) ⟨⟨0, 0, 0, 0, 0, 0, 0, 0⟩, 0, []⟩
      fuel insIndex List.reverse 2 (fun q : ℚ => (Encodable.encode q : Int)) (fun _ => "notes".toList :: Verif.SortMain.twoIns)
      ["-i".toList, "*".toList] Verif.SortMain.twoWorld = .ok w' ∧
    ∃ d, w' ("1_".toList ++ fixed6 (exInc false) ++ ".segy".toList) = some d ∧ d.size = 7504 := by
  obtain ⟨s, t, hf⟩ := Verif.SortMain.two_fit
  have ht : ∀ n, target [] (Verif.SortMain.twoInfo s t) Verif.SortMain.twoIns n =
      "1_".toList ++ fixed6 (exInc false) ++ ".segy".toList := by
    intro n
    unfold target
    rw [Verif.SortMain.two_alike, if_neg (by decide)]
    show [] ++ decimal 1 ++ ['_'] ++ fixed6 (exInc false) ++ _ = _
    generalize fixed6 (exInc false) = x
    rfl
  have hlong : ∀ n, target [] (Verif.SortMain.twoInfo s t) Verif.SortMain.twoIns n ∉ Verif.SortMain.twoIns := by
    intro n hm
    rw [ht] at hm
    revert hm
    generalize fixed6 (exInc false) = x
    intro hm
    simp only [Verif.SortMain.twoIns, List.mem_cons, List.not_mem_nil, or_false] at hm
    rcases hm with hm | hm <;> exact absurd (congrArg List.head? hm) (by simp)
  obtain ⟨_, n0, h⟩ := C106_sort_refuted Sort.off (fun c => keySort c) (keySort pairLt) pair_sorts
    ⟨⟨0, 0, 0, 0, 0, 0, 0, 0⟩, 0, []⟩ insIndex
    insIndex_sorts List.reverse (fun l => List.reverse_perm l) 2 (by omega) _ exCode (fun _ => "notes".toList :: Verif.SortMain.twoIns)
    ["-i".toList, "*".toList] "*".toList 35 (by decide) (by omega) (by simp)
    (comp_sorts Sort.off 35) (ins := Verif.SortMain.twoIns) (by decide) (by decide) hf
    (fun n _ m _ e _ => by rw [Verif.SortMain.two_alike] at e; exact absurd e (by decide)) (fun n _ => hlong n)
    (fun n _ => by rw [Verif.SortMain.two_total, Verif.SortMain.two_alike]; show (16 + 1) * 2 < 2 ^ 63; omega)
    (fun n _ => by rw [Verif.SortMain.two_alike]; exact .inr ⟨8, fun _ _ => rfl, by decide⟩)
  refine ⟨n0, fun fuel hfuel => ?_⟩
  obtain ⟨w', e1, e2, _⟩ := h fuel hfuel
  obtain ⟨d, src, d1, d2⟩ := e2 "s.segy".toList (by decide)
  rw [ht] at d1
  refine ⟨w', e1, d, d1, ?_⟩
  rw [d2.size, Verif.SortMain.two_total]; rfl

/-- **C106** fails for `verifysort` without a file name: with assertions it ends; in the default build it writes `Success` on all
processes. -/
theorem C106_verify_refuted (o : OffFn) (P : Nat) (argv : List Name) (y : Name) (ty : Nat) (hty : ty < 2 ^ 64)
    (hargv : verifyParse argv = .ok ⟨[], y, ty⟩) (w : World) (hw : w [] = none) :
    verifyMain o P argv w = .abort ∧ verifyMainR o P argv w = .ok (List.replicate P true) := by
  constructor
  · unfold verifyMain
    rw [hargv, Res.ok_bind]
    dsimp only
    rw [if_pos rfl]
  · have h := Verif.SortMain.C101_missing_refuted o P ["-i".toList, ['q'], "-t".toList, decimal ty] ['q'] [] ty (by simp)
      (Verif.SortMain.verify_options ['q'] ty hty) (fun _ => none) (by simp)
    unfold verifyMain at h
    rw [Verif.SortMain.verify_options ['q'] ty hty, Res.ok_bind] at h
    dsimp only at h
    rw [if_neg (by simp)] at h
    unfold verifyMainR
    rw [hargv, Res.ok_bind]
    dsimp only
    rw [hw]
    exact h

/-- No arguments at all. -/
example : verifyMainR Sort.off 3 [] (fun _ => none) = .ok [true, true, true] :=
  (C106_verify_refuted Sort.off 3 [] [] 35 (by decide) (by decide) (fun _ => none) rfl).2

end

end Verif.Release
