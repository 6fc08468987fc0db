import Verif.Util.DistVec
import Verif.Props.Decomp
import Mathlib.Tactic.NormNum

/-!
# C47: the distributed vector
-/

namespace Verif.Util
open Verif.Decomp

variable {T : Type}

/-- A call of `set` or `get` on some process. -/
inductive VecOp (T : Type) where
  | set (rank i : Nat) (val : T)
  | get (rank i : Nat)

/-- The process and index of a call. -/
def VecOp.rank : VecOp T → Nat | .set r _ _ => r | .get r _ => r
def VecOp.index : VecOp T → Nat | .set _ i _ => i | .get _ i => i

/-- The calls one after the other: the values returned. -/
def runVec (dflt : T) : List (VecOp T) → DistVec T → Res (List T)
  | [], _ => .ok []
  | .set r i x :: ops, v => do
    let v ← v.set r i x
    runVec dflt ops v
  | .get r i :: ops, v => do
    let x ← v.get dflt r i
    let l ← runVec dflt ops v
    .ok (x :: l)

/-- The same calls on one array. -/
def runArray : List (VecOp T) → (Nat → T) → List T
  | [], _ => []
  | .set _ i x :: ops, A => runArray ops (fun k => if k = i then x else A k)
  | .get _ i :: ops, A => A i :: runArray ops A

/-- The element lies inside the memory allocated: its share of `n` elements is allocated `n` bytes. -/
def Allocated (globalSize numRanks tSize i : Nat) : Prop :=
  ∃ r d, r < numRanks ∧ blockDecomposition globalSize numRanks r = .ok d ∧ d.globalOffset ≤ i ∧
    (i - d.globalOffset + 1) * tSize ≤ d.localSize

/-- C47 (partial). For every size, number of processes, element size and initial contents, and every sequence of calls on
processes other than the first that touch only allocated elements: the values returned are those of one array.

The full claim is for every element and process: `C47_memory_refuted`, `C47_first_refuted`. -/
theorem C47_array_partial (globalSize N tSize : Nat) (init : Nat → Nat → T) (dflt : T) (hN : 1 ≤ N)
    (h64 : globalSize < 2 ^ 64) (ht : 1 ≤ tSize) :
    ∃ A : Nat → T, ∀ ops : List (VecOp T), (∀ o ∈ ops, 1 ≤ o.rank ∧ Allocated globalSize N tSize o.index) →
      runVec dflt ops (DistVec.new globalSize N tSize init) = .ok (runArray ops A) := by
  let L : Nat → Loc := fun i => match blockDecompositionLocation globalSize N i with | .ok l => l | _ => ⟨0, 0⟩
  have hL : ∀ i, i < globalSize → blockDecompositionLocation globalSize N i = .ok (L i) := by
    intro i hi
    obtain ⟨l, h, _⟩ := location_eq (show 0 < N by omega) hi h64
    simp only [L, h]
  have hinj : ∀ i j, i < globalSize → j < globalSize → (L i).rank = (L j).rank → (L i).localIndex = (L j).localIndex → i = j := by
    intro i j hi hj h1 h2
    obtain ⟨l, g1, _, _, g4⟩ := location_eq (show 0 < N by omega) hi h64
    obtain ⟨l', g1', _, _, g4'⟩ := location_eq (show 0 < N by omega) hj h64
    rw [hL i hi] at g1
    rw [hL j hj] at g1'
    cases g1
    cases g1'
    rw [h1, h2] at g4
    omega
  have halloc : ∀ i, Allocated globalSize N tSize i → i < globalSize ∧ ∀ v : DistVec T, v.globalSize = globalSize → v.numRanks = N →
      v.tSize = tSize → v.bytes = (DistVec.new globalSize N tSize init).bytes → v.inWindow (L i).rank (L i).localIndex := by
    intro i ⟨r, d, hr, hd, hle, hin⟩
    have hd' := blockDecomposition_eq (show 0 < N by omega) hr h64
    rw [hd] at hd'
    cases hd'
    simp only at hle hin
    have hlt : i - off globalSize N r + 1 ≤ sz globalSize N r := by
      have : (i - off globalSize N r + 1) * 1 ≤ (i - off globalSize N r + 1) * tSize := Nat.mul_le_mul_left _ ht
      omega
    have hend := off_le globalSize N (r + 1) (by omega) (by omega)
    rw [off_succ] at hend
    have hi : i < globalSize := by omega
    have hloc := C02_location_unique globalSize N i r (i - off globalSize N r) (by omega) h64 hr _ hd (by simp only; omega)
      (by simp only; omega)
    rw [hL i hi] at hloc
    injection hloc with hloc
    refine ⟨hi, ?_⟩
    intro v _ _ h3 h4
    unfold DistVec.inWindow
    rw [h3, h4, hloc]
    simp only [DistVec.new, hd]
    exact hin
  refine ⟨fun i => init (L i).rank (L i).localIndex, ?_⟩
  have main : ∀ (ops : List (VecOp T)), (∀ o ∈ ops, 1 ≤ o.rank ∧ Allocated globalSize N tSize o.index) →
      ∀ (v : DistVec T) (A : Nat → T), v.globalSize = globalSize → v.numRanks = N → v.tSize = tSize →
        v.bytes = (DistVec.new globalSize N tSize init).bytes →
        (∀ i, i < globalSize → A i = v.data (L i).rank (L i).localIndex) → runVec dflt ops v = .ok (runArray ops A) := by
    intro ops
    induction ops with
    | nil => intro _ v A _ _ _ _ _; rfl
    | cons o ops ih =>
      intro ho v A h1 h2 h3 h4 h5
      have ⟨hr, ha⟩ := ho o List.mem_cons_self
      obtain ⟨hi, hw⟩ := halloc _ ha
      have hw := hw v h1 h2 h3 h4
      have hrest := ih (fun o h => ho o (List.mem_cons_of_mem _ h))
      cases o with
      | set r i x =>
        simp only [VecOp.rank, VecOp.index] at hr hi hw
        unfold runVec runArray DistVec.set
        rw [h1, h2, if_neg (by omega), hL i hi, Res.ok_bind, if_neg (by omega), if_neg (by simpa using hw), Res.ok_bind]
        apply hrest
        · rfl
        · rfl
        · exact h3
        · exact h4
        · intro k hk
          simp only
          by_cases hki : k = i
          · subst hki
            rw [if_pos rfl, if_pos ⟨rfl, rfl⟩]
          · rw [if_neg hki, if_neg (fun h => hki (hinj k i hk hi h.1 h.2))]
            exact h5 k hk
      | get r i =>
        simp only [VecOp.rank, VecOp.index] at hr hi hw
        unfold runVec runArray DistVec.get
        rw [h1, h2, if_neg (by omega), hL i hi, Res.ok_bind, if_neg (by omega), if_neg (by simpa using hw), Res.ok_bind,
          hrest v A h1 h2 h3 h4 h5, Res.ok_bind, h5 i hi]
  intro ops ho
  exact main ops ho _ _ rfl rfl rfl rfl (fun i _ => rfl)

/-- Five one-byte elements on two processes; process 1 sets and gets elements of both. -/
example : runVec 0 [.set 1 0 7, .set 1 4 9, .get 1 0, .get 1 4, .set 1 0 8, .get 1 0] (DistVec.new 5 2 1 fun _ _ => 0) =
    .ok [7, 9, 8] := by decide

/-- C47, one-byte elements: all of them are allocated. -/
theorem C47_bytes (globalSize N i : Nat) (hN : 1 ≤ N) (h64 : globalSize < 2 ^ 64) (hi : i < globalSize) :
    Allocated globalSize N 1 i := by
  obtain ⟨l, _, h2, h3, h4⟩ := location_eq (show 0 < N by omega) hi h64
  exact ⟨l.rank, _, h2, blockDecomposition_eq (by omega) h2 h64, by simp only; omega, by simp only; omega⟩

example : (1 : Nat) ≤ 2 ∧ 4 < 5 ∧ blockDecomposition 5 2 1 = .ok ⟨3, 2⟩ := by decide

/-- C47 fails for elements of two bytes or more, on every number of processes and for every size: the last element of
every share lies outside the memory of the share, and setting or getting it is undefined. -/
theorem C47_memory_refuted (globalSize N tSize rank r : Nat) (init : Nat → Nat → T) (dflt x : T) (hN : 1 ≤ N)
    (h64 : globalSize < 2 ^ 64) (ht : 2 ≤ tSize) (hrank : 1 ≤ rank) (hr : r < N) (d : Dec)
    (hd : blockDecomposition globalSize N r = .ok d) (hs : d.localSize ≠ 0) :
    (DistVec.new globalSize N tSize init).set rank (d.globalOffset + d.localSize - 1) x = .ub ∧
    (DistVec.new globalSize N tSize init).get dflt rank (d.globalOffset + d.localSize - 1) = .ub := by
  have hloc := C02_location_unique globalSize N (d.globalOffset + d.localSize - 1) r (d.localSize - 1) (by omega) h64 hr d hd
    (by omega) (by omega)
  have hd' := blockDecomposition_eq (show 0 < N by omega) hr h64
  have hend := off_le globalSize N (r + 1) (by omega) (by omega)
  rw [off_succ] at hend
  have hdd : d = ⟨off globalSize N r, sz globalSize N r⟩ := by
    rw [hd] at hd'
    cases hd'
    rfl
  have hle : d.globalOffset + d.localSize ≤ globalSize := by rw [hdd]; exact hend
  have hw : ¬ (DistVec.new globalSize N tSize init).inWindow r (d.localSize - 1) := by
    unfold DistVec.inWindow DistVec.new
    simp only [hd]
    have : (d.localSize - 1 + 1) * 2 ≤ (d.localSize - 1 + 1) * tSize := Nat.mul_le_mul_left _ ht
    omega
  constructor
  · unfold DistVec.set
    rw [show (DistVec.new globalSize N tSize init).globalSize = globalSize from rfl,
      show (DistVec.new globalSize N tSize init).numRanks = N from rfl, if_neg (by omega), hloc, Res.ok_bind,
      if_neg (by omega), if_pos hw]
  · unfold DistVec.get
    rw [show (DistVec.new globalSize N tSize init).globalSize = globalSize from rfl,
      show (DistVec.new globalSize N tSize init).numRanks = N from rfl, if_neg (by omega), hloc, Res.ok_bind,
      if_neg (by omega), if_pos hw]

example : (DistVec.new 5 2 8 fun _ _ => 0).set 1 2 7 = .ub := by
  exact (C47_memory_refuted 5 2 8 1 0 (fun _ _ => 0) 0 7 (by decide) (by decide) (by decide) (by decide) (by decide) ⟨0, 3⟩ rfl
    (by decide)).1

/-- C47 fails on the first process for every element: the assertion on the rank stops the program. -/
theorem C47_first_refuted (globalSize N tSize i : Nat) (init : Nat → Nat → T) (dflt x : T) (hN : 1 ≤ N)
    (h64 : globalSize < 2 ^ 64) (hi : i < globalSize) :
    (DistVec.new globalSize N tSize init).set 0 i x = .abort ∧ (DistVec.new globalSize N tSize init).get dflt 0 i = .abort := by
  obtain ⟨l, h, _⟩ := location_eq (show 0 < N by omega) hi h64
  constructor
  · unfold DistVec.set
    rw [if_neg (by simp only [DistVec.new]; omega)]
    simp only [DistVec.new]
    rw [h, Res.ok_bind, if_pos (by omega)]
  · unfold DistVec.get
    rw [if_neg (by simp only [DistVec.new]; omega)]
    simp only [DistVec.new]
    rw [h, Res.ok_bind, if_pos (by omega)]

/-- C47, out of range: an index beyond the end is ignored, but the one just behind the last stops the program. -/
theorem C47_behind (globalSize N tSize rank i : Nat) (init : Nat → Nat → T) (dflt x : T) :
    (globalSize < i → (DistVec.new globalSize N tSize init).set rank i x = .ok (DistVec.new globalSize N tSize init) ∧
      (DistVec.new globalSize N tSize init).get dflt rank i = .ok dflt) ∧
    (DistVec.new globalSize N tSize init).set rank globalSize x = .abort ∧
    (DistVec.new globalSize N tSize init).get dflt rank globalSize = .abort := by
  have h := C02_out_of_range globalSize N globalSize (Nat.le_refl _)
  refine ⟨?_, ?_, ?_⟩
  · intro hi
    unfold DistVec.set DistVec.get
    rw [if_pos (by simpa [DistVec.new] using hi), if_pos (by simpa [DistVec.new] using hi)]
    exact ⟨rfl, rfl⟩
  · unfold DistVec.set
    rw [if_neg (by simp [DistVec.new])]
    simp only [DistVec.new, h]
    rfl
  · unfold DistVec.get
    rw [if_neg (by simp [DistVec.new])]
    simp only [DistVec.new, h]
    rfl

end Verif.Util
