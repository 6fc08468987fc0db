import Mathlib.Tactic.Ring
import Verif.Util.Sglobal
import Verif.Props.Decomp
import Mathlib.Tactic.NormNum

/-!
# C52, C60: decompositions of the tools
-/

namespace Verif.Util
open Verif.Decomp

/-- Where the share of process `r` of `k` blocks starts in bytes. -/
def cut (k bsz e sz N r : Nat) : Nat := min sz (off k N r * bsz - e)

/-- The numbers behind a range that meets more than one block. -/
theorem blocks_eq {sz bsz o : Nat} (hb : 0 < bsz) (hq : o / bsz < (o + sz) / bsz) :
    ∃ k, 2 ≤ k ∧ sz + o % bsz = (k - 1) * bsz + (o + sz) % bsz ∧
      sz - (bsz - o % bsz) - (o + sz) % bsz = (k - 2) * bsz ∧ bsz - o % bsz + (o + sz) % bsz ≤ sz := by
  have h1 := Nat.div_add_mod o bsz
  have h2 := Nat.div_add_mod (o + sz) bsz
  have h3 := Nat.mod_lt o hb
  have h4 := Nat.mod_lt (o + sz) hb
  obtain ⟨d, hd⟩ : ∃ d, (o + sz) / bsz = o / bsz + 1 + d := ⟨(o + sz) / bsz - o / bsz - 1, by omega⟩
  rw [hd, Nat.mul_add, Nat.mul_add, Nat.mul_one] at h2
  refine ⟨d + 2, by omega, ?_, ?_, ?_⟩
  · rw [show d + 2 - 1 = d + 1 by omega, Nat.add_mul, Nat.one_mul, Nat.mul_comm d]
    omega
  · rw [show d + 2 - 2 = d by omega, Nat.mul_comm d]
    omega
  · omega

theorem blockDecomp_eq (sz bsz N r o : Nat) (hb : 0 < bsz) (hN : 0 < N) (hr : r < N)
    (h64 : o + sz + 2 * bsz < 2 ^ 64) (k : Nat) (hk : 2 ≤ k) (hks : sz + o % bsz = (k - 1) * bsz + (o + sz) % bsz)
    (hin : sz - (bsz - o % bsz) - (o + sz) % bsz = (k - 2) * bsz) (hle : bsz - o % bsz + (o + sz) % bsz ≤ sz) :
    ∃ d, blockDecomp sz bsz N r o = .ok d ∧ d.localSize = cut k bsz (o % bsz) sz N (r + 1) - cut k bsz (o % bsz) sz N r ∧
      (d.localSize ≠ 0 → d.globalOffset = cut k bsz (o % bsz) sz N r ∧ (r = 0 ∨ (o + d.globalOffset) % bsz = 0)) ∧
      (d.localSize = 0 → d.globalOffset = sz) := by
  have he := Nat.mod_lt o hb
  have hre := Nat.mod_lt (o + sz) hb
  have hkb : k * bsz = (k - 1) * bsz + bsz := by
    conv => lhs; rw [show k = (k - 1) + 1 by omega, Nat.add_mul, Nat.one_mul]
  have hk64 : k < 2 ^ 64 := by
    have : k * 1 ≤ k * bsz := Nat.mul_le_mul_left _ hb
    omega
  have hdec := blockDecomposition_eq hN hr hk64
  have hsucc := off_succ k N r
  have hlast := off_le k N (r + 1) hN (by omega)
  have hfirst : r = 0 → off k N r = 0 := by intro h; subst h; exact off_zero k N
  have hpos : 0 < r → sz.succ ≠ 0 → Verif.Decomp.sz k N r ≠ 0 → 1 ≤ off k N r := by
    intro h0 _ hs
    unfold Verif.Decomp.sz at hs
    unfold off
    by_cases hc : r < k % N
    · rw [Nat.min_eq_left (by omega)]; omega
    · rw [if_neg hc] at hs
      have : 1 * 1 ≤ k / N * r := Nat.mul_le_mul (Nat.pos_of_ne_zero (by simpa using hs)) h0
      omega
  have hmul : off k N (r + 1) * bsz = off k N r * bsz + Verif.Decomp.sz k N r * bsz := by rw [hsucc, Nat.add_mul]
  have hub : off k N (r + 1) * bsz ≤ k * bsz := Nat.mul_le_mul_right _ hlast
  have hnl : off k N (r + 1) ≠ k → off k N (r + 1) * bsz ≤ (k - 1) * bsz := fun h => Nat.mul_le_mul_right _ (by omega)
  have hlk : off k N (r + 1) = k → off k N (r + 1) * bsz = k * bsz := fun h => by rw [h]
  have hsb : Verif.Decomp.sz k N r ≠ 0 → bsz ≤ Verif.Decomp.sz k N r * bsz := fun h => Nat.le_mul_of_pos_left _ (by omega)
  have hs0 : Verif.Decomp.sz k N r = 0 → Verif.Decomp.sz k N r * bsz = 0 := fun h => by rw [h, Nat.zero_mul]
  have hob : 1 ≤ off k N r → bsz ≤ off k N r * bsz := fun h => Nat.le_mul_of_pos_left _ h
  have hf0 : off k N r = 0 → off k N r * bsz = 0 := fun h => by rw [h, Nat.zero_mul]
  have hblock : o % bsz ≤ off k N r * bsz → (o + (off k N r * bsz - o % bsz)) % bsz = 0 := by
    intro h
    have h1 := Nat.div_add_mod o bsz
    have : o + (off k N r * bsz - o % bsz) = bsz * (o / bsz) + off k N r * bsz := by omega
    rw [this, Nat.mul_comm (off k N r), ← Nat.mul_add, Nat.mul_mod_right]
  unfold cut
  unfold blockDecomp
  rw [if_neg (by omega)]
  simp only
  rw [sub64_eq (a := bsz) (b := o % bsz) he.le (by omega), add64_eq (a := o) (by omega)]
  rw [sub64_eq (a := sz) (by omega) (by omega), sub64_eq (by omega) (by omega), hin, Nat.mul_mod_left,
    if_neg (by simp), Nat.mul_div_cancel _ hb, add64_eq (by omega), show k - 2 + 2 = k by omega, hdec, Res.ok_bind]
  simp only
  rw [mul64_eq (by omega), mul64_eq (by omega), sub64_eq (a := bsz) (b := bsz - o % bsz) (by omega) (by omega),
    sub64_eq (a := bsz) (b := (o + sz) % bsz) (by omega) (by omega), show bsz - (bsz - o % bsz) = o % bsz by omega]
  generalize hS : Verif.Decomp.sz k N r * bsz = S at *
  generalize hO : off k N r * bsz = O at *
  generalize hO1 : off k N (r + 1) * bsz = O1 at *
  generalize hK : (k - 1) * bsz = K1 at *
  generalize hKK : k * bsz = KK at *
  generalize hE : o % bsz = e at *
  generalize hRE : (o + sz) % bsz = re at *
  by_cases h0 : S = 0
  · rw [if_pos h0]
    exact ⟨⟨sz, 0⟩, rfl, by simp only; omega, by intro h; exact absurd rfl h, by intro _; rfl⟩
  · rw [if_neg h0]
    have hsne : Verif.Decomp.sz k N r ≠ 0 := fun h => h0 (hs0 h)
    have := hsb hsne
    by_cases hr0 : r = 0
    · have hO0 := hf0 (hfirst hr0)
      rw [if_pos hr0, if_pos hr0, sub64_eq (a := S) (by omega) (by omega), add64_eq (by omega)]
      by_cases hl : off k N (r + 1) = k
      · have := hlk hl
        rw [if_pos (by omega), sub64_eq (by omega) (by omega)]
        exact ⟨_, rfl, by simp only; omega, by intro _; simp only; omega, by intro h; simp only at h ⊢; omega⟩
      · have := hnl hl
        rw [if_neg (by omega)]
        exact ⟨_, rfl, by simp only; omega, by intro _; simp only; omega, by intro h; simp only at h ⊢; omega⟩
    · have h1 := hpos (by omega) (by omega) hsne
      have h2 := hob h1
      have h3 := hblock (by omega)
      rw [if_neg hr0, if_neg hr0, sub64_eq (a := O) (by omega) (by omega), add64_eq (by omega)]
      by_cases hl : off k N (r + 1) = k
      · have := hlk hl
        rw [if_pos (by omega), sub64_eq (by omega) (by omega)]
        exact ⟨_, rfl, by simp only; omega, by intro _; simp only; omega, by intro h; simp only at h ⊢; omega⟩
      · have := hnl hl
        rw [if_neg (by omega)]
        exact ⟨_, rfl, by simp only; omega, by intro _; simp only; omega, by intro h; simp only at h ⊢; omega⟩

/-- C52 (partial). For every range of bytes that meets more than one block, every block size and every number of
processes: the shares in rank order spell out the range exactly, and every share starts with the range or at the start of
a block of the file.

The full claim is for every range: `C52_inside_refuted`, `C52_size_refuted`. -/
theorem C52_tiles_partial (sz bsz N o : Nat) (hb : 0 < bsz) (hN : 0 < N) (hq : o / bsz < (o + sz) / bsz)
    (h64 : o + sz + 2 * bsz < 2 ^ 64) :
    ∃ ds : List Dec, ds.length = N ∧ (∀ r (h : r < ds.length), blockDecomp sz bsz N r o = .ok ds[r]) ∧
      ds.flatMap Dec.elems = List.range sz ∧
      ∀ d ∈ ds, d.localSize ≠ 0 → d.globalOffset = 0 ∨ (o + d.globalOffset) % bsz = 0 := by
  obtain ⟨k, hk, h1, h2, h3⟩ := blocks_eq hb hq
  have key := fun r (hr : r < N) => blockDecomp_eq sz bsz N r o hb hN hr h64 k hk h1 h2 h3
  have he := Nat.mod_lt o hb
  have hre := Nat.mod_lt (o + sz) hb
  have hkb : k * bsz = (k - 1) * bsz + bsz := by
    conv => lhs; rw [show k = (k - 1) + 1 by omega, Nat.add_mul, Nat.one_mul]
  let D : Nat → Dec := fun r => match blockDecomp sz bsz N r o with | .ok d => d | _ => ⟨0, 0⟩
  have hD : ∀ r, r < N → blockDecomp sz bsz N r o = .ok (D r) := by
    intro r hr
    obtain ⟨d, hd, _⟩ := key r hr
    simp only [D, hd]
  have hc0 : cut k bsz (o % bsz) sz N 0 = 0 := by unfold cut; rw [off_zero]; simp
  have hcN : cut k bsz (o % bsz) sz N N = sz := by
    unfold cut
    rw [off_last _ _ hN]
    omega
  have hmono : ∀ r, cut k bsz (o % bsz) sz N r ≤ cut k bsz (o % bsz) sz N (r + 1) := by
    intro r
    unfold cut
    have := Nat.mul_le_mul_right bsz (off_mono k N (Nat.le_succ r))
    simp only [Nat.succ_eq_add_one] at this
    omega
  refine ⟨(List.range N).map D, by simp, ?_, ?_, ?_⟩
  · intro r h
    simp only [List.length_map, List.length_range] at h
    rw [hD r h]
    simp
  · have : ∀ m, m ≤ N → ((List.range m).map D).flatMap Dec.elems = List.range (cut k bsz (o % bsz) sz N m) := by
      intro m
      induction m with
      | zero => intro _; rw [hc0]; rfl
      | succ m ih =>
        intro hm
        rw [List.range_succ, List.map_append, List.flatMap_append, ih (by omega)]
        obtain ⟨d, hd, hl, hg, _⟩ := key m (by omega)
        have hDm : D m = d := by
          have := hD m (by omega)
          rw [hd] at this
          cases this
          rfl
        simp only [List.map_cons, List.map_nil, List.flatMap_cons, List.flatMap_nil, List.append_nil, hDm]
        unfold Dec.elems
        have hm' := hmono m
        by_cases h0 : d.localSize = 0
        · rw [h0, List.range'_zero, List.append_nil]
          congr 1
          omega
        · rw [(hg h0).1, hl, List.range_eq_range', List.range_eq_range']
          rw [show cut k bsz (o % bsz) sz N (m + 1) = cut k bsz (o % bsz) sz N m +
            (cut k bsz (o % bsz) sz N (m + 1) - cut k bsz (o % bsz) sz N m) by omega]
          rw [← List.range'_append_1]
          simp
    rw [this N le_rfl, hcN]
  · intro d hd hne
    rw [List.mem_map] at hd
    obtain ⟨r, hr, rfl⟩ := hd
    rw [List.mem_range] at hr
    obtain ⟨d', hd', hl, hg, _⟩ := key r hr
    have : D r = d' := by
      have := hD r hr
      rw [hd'] at this
      cases this
      rfl
    rw [this] at hne ⊢
    rcases hg hne with ⟨h1, rfl | h2⟩
    · exact Or.inl (by rw [h1, hc0])
    · exact Or.inr h2

/-- Blocks of 8 bytes, the range from byte 3 to byte 29 over two processes: blocks break at bytes 8, 16 and 24. -/
example : blockDecomp 26 8 2 0 3 = .ok ⟨0, 13⟩ ∧ blockDecomp 26 8 2 1 3 = .ok ⟨13, 13⟩ ∧
    blockDecomp 26 8 3 2 3 = .ok ⟨21, 5⟩ ∧ 3 / 8 < (3 + 26) / 8 := by decide

/-- The first share of a range inside one block. -/
theorem inside_share (sz o N j : Nat) (hj : 1 ≤ j) (hj' : j ≤ 60) (hN : 2 ≤ N) (hN' : N ≤ 2 ^ (64 - j))
    (hq : (o + sz) / 2 ^ j = o / 2 ^ j) (h64 : o + sz < 2 ^ 64) :
    ∃ d, blockDecomp sz (2 ^ j) N 0 o = .ok d ∧ d.globalOffset = 0 ∧ 2 ≤ Verif.Decomp.sz (2 ^ (64 - j) + 1) N 0 ∧
      d.localSize = Verif.Decomp.sz (2 ^ (64 - j) + 1) N 0 * 2 ^ j - 2 ^ j + sz := by
  have hpow : 2 ^ j * 2 ^ (64 - j) = 2 ^ 64 := by rw [← Nat.pow_add]; congr 1; omega
  have hb2 : 2 ≤ 2 ^ j := by
    calc 2 = 2 ^ 1 := rfl
      _ ≤ 2 ^ j := Nat.pow_le_pow_right (by omega) hj
  have hb60 : 2 ^ j ≤ 2 ^ 60 := Nat.pow_le_pow_right (by omega) hj'
  generalize hbs : 2 ^ j = bsz at *
  generalize hM : 2 ^ (64 - j) = M at *
  have h1 := Nat.div_add_mod o bsz
  have h2 := Nat.div_add_mod (o + sz) bsz
  have he := Nat.mod_lt o (show 0 < bsz by omega)
  have hre := Nat.mod_lt (o + sz) (show 0 < bsz by omega)
  rw [hq] at h2
  generalize o / bsz = q at *
  have hMpos : 16 ≤ M := by
    by_contra hcon
    have := Nat.mul_le_mul hb60 (show M ≤ 15 by omega)
    omega
  have hM64 : M + M ≤ 2 ^ 64 := by
    have := Nat.mul_le_mul_right M hb2
    omega
  -- the number of blocks
  have hin : sub64 (sub64 sz (bsz - o % bsz)) ((o + sz) % bsz) = 2 ^ 64 - bsz := by
    by_cases hz : sz < bsz - o % bsz
    · rw [sub64_wrap hz (by omega), sub64_eq (by omega) (by omega)]
      omega
    · omega
  have hinv : 2 ^ 64 - bsz = bsz * (M - 1) := by
    rw [Nat.mul_sub, Nat.mul_one, hpow]
  have hdec := blockDecomposition_eq (range := M + 1) (n := N) (r := 0) (by omega) (by omega) (by omega)
  -- the first process has at least two blocks, and not too many
  have hs2 : 2 ≤ Verif.Decomp.sz (M + 1) N 0 := by
    unfold Verif.Decomp.sz
    have : 1 ≤ (M + 1) / N := by rw [Nat.one_le_div_iff (by omega)]; omega
    by_cases h1' : (M + 1) / N = 1
    · have := Nat.div_add_mod (M + 1) N
      rw [h1'] at this
      rw [if_pos (by omega)]
      omega
    · omega
  have hsM : 2 * Verif.Decomp.sz (M + 1) N 0 ≤ M + 3 := by
    unfold Verif.Decomp.sz
    have := Nat.div_mul_le_self (M + 1) N
    have h2 : (M + 1) / N * 2 ≤ (M + 1) / N * N := Nat.mul_le_mul_left _ hN
    split <;> omega
  unfold blockDecomp
  rw [if_neg (by omega)]
  simp only
  rw [sub64_eq (a := bsz) (b := o % bsz) he.le (by omega), add64_eq (a := o) (by omega), hin, hinv, Nat.mul_mod_right,
    if_neg (by simp), Nat.mul_div_cancel_left _ (by omega), add64_eq (by omega), show M - 1 + 2 = M + 1 by omega, hdec,
    Res.ok_bind]
  simp only
  generalize Verif.Decomp.sz (M + 1) N 0 = s at *
  have hs64 : 2 * (s * bsz) ≤ 2 ^ 64 + 3 * bsz := by
    have := Nat.mul_le_mul_right bsz hsM
    rw [Nat.add_mul, Nat.mul_comm M, hpow, Nat.mul_assoc] at this
    exact this
  have hs2b : 2 * bsz ≤ s * bsz := Nat.mul_le_mul_right _ hs2
  rw [mul64_eq (a := s) (by omega), off_zero, sub64_eq (a := bsz) (b := bsz - o % bsz) (by omega) (by omega),
    sub64_eq (a := bsz) (b := (o + sz) % bsz) (by omega) (by omega), if_neg (by omega)]
  simp only [↓reduceIte]
  rw [sub64_eq (a := s * bsz) (by omega) (by omega), show mul64 0 bsz = 0 by simp [mul64], add64_eq (by omega), if_pos (by omega), sub64_eq (by omega) (by omega)]
  exact ⟨_, rfl, rfl, hs2, by simp only; omega⟩

/-- C52 fails for every range inside one block when the blocks are a power of two in size (as in `makerep`, `2^21`) and
there are two processes or more: the first process's share starts with the range and is longer. -/
theorem C52_inside_refuted (sz o N j : Nat) (hj : 1 ≤ j) (hj' : j ≤ 60) (hN : 2 ≤ N) (hN' : N ≤ 2 ^ (64 - j))
    (hq : (o + sz) / 2 ^ j = o / 2 ^ j) (h64 : o + sz < 2 ^ 64) :
    ∃ d, blockDecomp sz (2 ^ j) N 0 o = .ok d ∧ d.globalOffset = 0 ∧ sz < d.localSize := by
  obtain ⟨d, h1, h2, h3, h4⟩ := inside_share sz o N j hj hj' hN hN' hq h64
  refine ⟨d, h1, h2, ?_⟩
  have := Nat.mul_le_mul_right (2 ^ j) h3
  have hp : 0 < 2 ^ j := Nat.two_pow_pos j
  generalize 2 ^ j = b at *
  omega

/-- A file of 5000 bytes, less than a block of `makerep`, on two processes: the first process is to copy more than
`2^63` bytes. -/
example : blockDecomp 5000 (2 ^ 21) 2 0 0 = .ok ⟨0, 2 ^ 63 + 5000⟩ ∧ (0 + 5000) / 2 ^ 21 = 0 / 2 ^ 21 := by decide

/-- C52 fails for every range inside one block when the size of blocks does not divide `2^64`: the assertion stops the
program, for every number of processes. -/
theorem C52_size_refuted (sz bsz N r o : Nat) (hb : 0 < bsz) (hd : 2 ^ 64 % bsz ≠ 0) (hq : (o + sz) / bsz = o / bsz)
    (h64 : o + sz < 2 ^ 64) (hb64 : bsz < 2 ^ 64) : blockDecomp sz bsz N r o = .abort := by
  have h1 := Nat.div_add_mod o bsz
  have h2 := Nat.div_add_mod (o + sz) bsz
  have he := Nat.mod_lt o hb
  have hre := Nat.mod_lt (o + sz) hb
  rw [hq] at h2
  generalize o / bsz = q at *
  have hin : sub64 (sub64 sz (bsz - o % bsz)) ((o + sz) % bsz) = 2 ^ 64 - bsz := by
    rw [sub64_wrap (a := sz) (by omega) (by omega), sub64_eq (by omega) (by omega)]
    omega
  have hmod : (2 ^ 64 - bsz) % bsz = 2 ^ 64 % bsz := by
    have := Nat.add_mod_right (2 ^ 64 - bsz) bsz
    rw [Nat.sub_add_cancel hb64.le] at this
    exact this.symm
  unfold blockDecomp
  rw [if_neg (by omega)]
  simp only
  rw [sub64_eq (a := bsz) (b := o % bsz) he.le (by omega), add64_eq (a := o) (by omega), hin, hmod, if_pos hd]

example : blockDecomp 5 12 1 0 3 = .abort ∧ (3 + 5) / 12 = 3 / 12 ∧ 2 ^ 64 % 12 ≠ 0 := by decide

/-! ### The uneven decomposition -/

theorem accumulate32_eq (l : List Nat) : accumulate32 l = l.sum % 2 ^ 32 := by
  have : ∀ (l : List Nat) (acc : Nat), l.foldl (fun acc v => (acc + v) % 2 ^ 32) (acc % 2 ^ 32) = (acc + l.sum) % 2 ^ 32 := by
    intro l
    induction l with
    | nil => intro acc; simp
    | cons v l ih =>
      intro acc
      rw [List.foldl_cons, show (acc % 2 ^ 32 + v) % 2 ^ 32 = (acc + v) % 2 ^ 32 by omega, ih, List.sum_cons]
      congr 1
      omega
  have h := this l 0
  rw [Nat.zero_mod, Nat.zero_add] at h
  exact h

/-- Intervals of given sizes, one behind the other. -/
theorem tile_sizes (l : List Nat) :
    ∀ m, m ≤ l.length → (List.range m).flatMap (fun r => List.range' (l.take r).sum (l.getD r 0)) = List.range (l.take m).sum := by
  intro m
  induction m with
  | zero => intro _; rfl
  | succ m ih =>
    intro hm
    rw [List.range_succ, List.flatMap_append, ih (by omega)]
    simp only [List.flatMap_cons, List.flatMap_nil, List.append_nil]
    have hg : l.getD m 0 = l[m] := by rw [List.getD_eq_getElem?_getD, List.getElem?_eq_getElem (by omega)]; rfl
    rw [List.take_succ_eq_append_getElem (by omega), List.sum_append, hg]
    simp only [List.sum_cons, List.sum_nil, Nat.add_zero]
    rw [List.range_eq_range', List.range_eq_range', ← List.range'_append_1]
    simp

theorem take_sum_le (l : List Nat) (m : Nat) : (l.take m).sum ≤ l.sum := by
  conv => rhs; rw [← List.take_append_drop m l, List.sum_append]
  omega

theorem lobShares_length (sz N : Nat) : (lobShares sz N).length = N := by simp [lobShares]

theorem lobShares_sum (sz N : Nat) (hN : 1 ≤ N) (h64 : sz < 2 ^ 63)
    (hs : ((List.range N).map (lobShare sz N)).sum ≤ sz + lobShare sz N 0) (hf : lobShare sz N 0 < 2 ^ 63) :
    (lobShares sz N).sum = sz := by
  obtain ⟨n, rfl⟩ : ∃ n, N = n + 1 := ⟨N - 1, by omega⟩
  unfold lobShares lobSum
  have hexp : ∀ f : Nat → Nat, ((List.range (n + 1)).map f).sum = f 0 + ((List.range n).map fun r => f (r + 1)).sum := by
    intro f
    rw [List.range_succ_eq_map, List.map_cons, List.sum_cons, List.map_map]
    rfl
  rw [hexp] at hs
  rw [hexp, hexp]
  simp only [↓reduceIte, Nat.add_eq_zero_iff, Nat.one_ne_zero, and_false]
  generalize lobShare sz (n + 1) 0 = f at *
  generalize ((List.range n).map fun r => lobShare sz (n + 1) (r + 1)).sum = S at *
  rw [Nat.mod_eq_of_lt (by omega)]
  by_cases h : f + S ≤ sz
  · rw [sub64_eq h (by omega), add64_eq (by omega)]
    omega
  · rw [sub64_wrap (by omega) (by omega)]
    unfold add64
    omega

/-- C60 (partial). For every number of processes and every size below `2^32` for which rounding does not take more than
the first process has: the shares in rank order spell out the range, and every process learns the largest share.

The full claim is for every size: `C60_rounding_refuted`, `C60_large_refuted`. -/
theorem C60_tiles_partial (sz N : Nat) (hN : 1 ≤ N) (h32 : sz < 2 ^ 32)
    (hs : ((List.range N).map (lobShare sz N)).sum ≤ sz + lobShare sz N 0) (hf : lobShare sz N 0 < 2 ^ 63) :
    ∃ (ds : List Dec) (biggest : Nat), ds.length = N ∧
      (∀ r (h : r < ds.length), lobdecompose sz N r = .ok (ds[r].globalOffset, ds[r].localSize, biggest)) ∧
      ds.flatMap Dec.elems = List.range sz ∧ (ds.map Dec.localSize).max? = some biggest := by
  have hsum := lobShares_sum sz N hN (by omega) hs hf
  have hlen := lobShares_length sz N
  unfold lobdecompose
  simp only
  rw [accumulate32_eq, hsum, Nat.mod_eq_of_lt h32]
  simp only [ne_eq, not_true_eq_false, ↓reduceIte]
  generalize lobShares sz N = l at *
  obtain ⟨b, hb⟩ : ∃ b, l.max? = some b := by
    cases hm : l.max? with
    | none => rw [List.max?_eq_none_iff] at hm; rw [hm] at hlen; simp at hlen; omega
    | some b => exact ⟨b, rfl⟩
  rw [hb]
  refine ⟨(List.range N).map fun r => ⟨(l.take r).sum, l.getD r 0⟩, b, by simp, ?_, ?_, ?_⟩
  · intro r h
    simp only [List.length_map, List.length_range] at h
    have hg : l[r]? = some (l.getD r 0) := by
      rw [List.getD_eq_getElem?_getD, List.getElem?_eq_getElem (by omega)]; rfl
    rw [hg]
    simp only [List.getElem_map, List.getElem_range]
    have hle := take_sum_le l r
    by_cases hr : r = 0
    · subst hr; simp
    · rw [if_neg hr, accumulate32_eq, Nat.mod_eq_of_lt (by omega)]
  · rw [List.flatMap_map]
    show (List.range N).flatMap (fun r => List.range' (l.take r).sum (l.getD r 0)) = _
    rw [tile_sizes l N (by omega), List.take_of_length_le (by omega), hsum]
  · have : ((List.range N).map fun r => (⟨(l.take r).sum, l.getD r 0⟩ : Dec)).map Dec.localSize = l := by
      rw [List.map_map]
      apply List.ext_getElem?
      intro i
      by_cases hi : i < N
      · rw [List.getElem?_map, List.getElem?_range hi, List.getElem?_eq_getElem (by omega)]
        simp [List.getD_eq_getElem?_getD, List.getElem?_eq_getElem (show i < l.length by omega)]
      · rw [List.getElem?_eq_none (by simp; omega), List.getElem?_eq_none (by omega)]
    rw [this, hb]

/-- Ten traces on three processes. -/
example : lobdecompose 10 3 0 = .ok (0, 2, 5) ∧ lobdecompose 10 3 1 = .ok (2, 3, 5) ∧ lobdecompose 10 3 2 = .ok (5, 5, 5) ∧
    ((List.range 3).map (lobShare 10 3)).sum ≤ 10 + lobShare 10 3 0 := by decide

theorem lob_sum (sz N : Nat) : ∀ m, ((List.range m).map (lobShare sz N)).sum * (2 * (N * (N + 1) / 2)) ≤
    sz * (m * (m + 1)) + m * (N * (N + 1) / 2) := by
  intro m
  induction m with
  | zero => simp
  | succ m ih =>
    rw [List.range_succ, List.map_append, List.sum_append, Nat.add_mul]
    simp only [List.map_cons, List.map_nil, List.sum_cons, List.sum_nil, Nat.add_zero]
    have : lobShare sz N m * (2 * (N * (N + 1) / 2)) ≤ 2 * (sz * (m + 1)) + N * (N + 1) / 2 := Nat.div_mul_le_self _ _
    have e : sz * ((m + 1) * (m + 1 + 1)) = sz * (m * (m + 1)) + 2 * (sz * (m + 1)) := by ring
    rw [e, Nat.add_mul m 1, Nat.one_mul]
    omega

/-- Enough traces for the number of processes: rounding takes no more than the first process has. -/
theorem lob_enough {sz N : Nat} (hN : 1 ≤ N) (h : (N - 1) * (N * (N + 1)) ≤ 4 * sz) :
    ((List.range N).map (lobShare sz N)).sum ≤ sz + lobShare sz N 0 := by
  have h1 := lob_sum sz N N
  obtain ⟨T, hT⟩ : ∃ T, N * (N + 1) / 2 = T := ⟨_, rfl⟩
  have h2T : N * (N + 1) = 2 * T := by
    have := Nat.even_mul_succ_self N
    have := Nat.even_iff.1 this
    omega
  have hT1 : 0 < 2 * T := by rw [← h2T]; positivity
  have h0 : 2 * (sz * (0 + 1)) + T < 2 * T * (lobShare sz N 0 + 1) := by
    unfold lobShare
    rw [hT]
    exact Nat.lt_mul_div_succ _ hT1
  rw [hT, h2T] at h1
  rw [h2T] at h
  by_contra hc
  have hc : sz + lobShare sz N 0 + 1 ≤ ((List.range N).map (lobShare sz N)).sum := by omega
  have h2 := Nat.mul_le_mul_right (2 * T) hc
  generalize ((List.range N).map (lobShare sz N)).sum = S at *
  generalize lobShare sz N 0 = a at *
  obtain ⟨n, rfl⟩ : ∃ n, N = n + 1 := ⟨N - 1, by omega⟩
  rw [Nat.add_sub_cancel] at h
  rw [Nat.add_assoc, Nat.add_mul] at h2
  rw [Nat.mul_comm (2 * T)] at h0
  have e1 : (n + 1) * T = n * T + T := by ring
  have e2 : n * (2 * T) = 2 * (n * T) := by ring
  rw [e1] at h1
  rw [e2] at h
  omega

/-- C60 (partial), by sizes: with at least `(N - 1) N (N + 1) / 4` and fewer than `2^32` elements the shares make up the
range one after the other. -/
theorem C60_sizes_partial (sz N : Nat) (hN : 1 ≤ N) (h : (N - 1) * (N * (N + 1)) ≤ 4 * sz) (h32 : sz < 2 ^ 32) :
    ∃ (ds : List Dec) (biggest : Nat), ds.length = N ∧
      (∀ r (h : r < ds.length), lobdecompose sz N r = .ok (ds[r].globalOffset, ds[r].localSize, biggest)) ∧
      ds.flatMap Dec.elems = List.range sz ∧ (ds.map Dec.localSize).max? = some biggest := by
  refine C60_tiles_partial sz N hN h32 (lob_enough hN h) ?_
  unfold lobShare
  have h2 : 2 ≤ N * (N + 1) := Nat.mul_le_mul hN (show 2 ≤ N + 1 by omega)
  obtain ⟨T, hT⟩ : ∃ T, N * (N + 1) / 2 = T := ⟨_, rfl⟩
  rw [hT, Nat.div_lt_iff_lt_mul (by omega)]
  have : 2 ^ 33 * (2 * T) ≤ 2 ^ 63 * (2 * T) := Nat.mul_le_mul_right _ (by norm_num)
  omega

example : (7 - 1) * (7 * (7 + 1)) ≤ 4 * 84 ∧ lobdecompose 84 7 0 = .ok (0, 3, 21) := by decide

/-- C60 fails: seven traces on seven processes. The rounded shares of the others are eight together, and the first process
is told that it has `2^64 - 1` traces. -/
theorem C60_rounding_refuted : ¬ ∀ sz N, 1 ≤ N → ∀ r, r < N → ∃ o l b, lobdecompose sz N r = .ok (o, l, b) ∧ l ≤ sz := by
  intro h
  obtain ⟨o, l, b, h1, h2⟩ := h 7 7 (by decide) 0 (by decide)
  have : lobdecompose 7 7 0 = .ok (0, 2 ^ 64 - 1, 2 ^ 64 - 1) := by decide
  rw [this] at h1
  cases h1
  omega

/-- C60 fails for every size of `2^32` and more, on every number of processes: the assertion compares with a sum kept in
32 bits. -/
theorem C60_large_refuted (sz N r : Nat) (hN : 1 ≤ N) (h32 : 2 ^ 32 ≤ sz) : lobdecompose sz N r = .abort := by
  have hlen := lobShares_length sz N
  unfold lobdecompose
  simp only
  obtain ⟨b, hb⟩ : ∃ b, (lobShares sz N).max? = some b := by
    cases hm : (lobShares sz N).max? with
    | none => rw [List.max?_eq_none_iff] at hm; rw [hm] at hlen; simp at hlen; omega
    | some b => exact ⟨b, rfl⟩
  rw [hb, accumulate32_eq]
  simp only
  rw [if_pos (by omega)]

example : lobdecompose (2 ^ 32) 2 0 = .abort := by decide

/-- C60 fails in the direction of the weights, for every size and number of processes: after the first process a higher
rank never has less. -/
theorem C60_weights_refuted (sz N r s : Nat) (hr : 1 ≤ r) (hrs : r ≤ s) (hs : s < N) :
    (lobShares sz N).getD r 0 ≤ (lobShares sz N).getD s 0 := by
  unfold lobShares
  rw [List.getD_eq_getElem?_getD, List.getD_eq_getElem?_getD, List.getElem?_map, List.getElem?_map,
    List.getElem?_range (by omega), List.getElem?_range hs]
  simp only [Option.map_some, Option.getD_some]
  rw [if_neg (by omega), if_neg (by omega)]
  unfold lobShare
  apply Nat.div_le_div_right
  have := Nat.mul_le_mul_left sz (show r + 1 ≤ s + 1 by omega)
  omega

example : lobShares 10 3 = [2, 3, 5] := by decide

end Verif.Util
