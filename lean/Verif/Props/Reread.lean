import Verif.Props.Scalar
import Verif.Flow.OutputLemmas

/-!
# Headers read and written again (C53)
-/

namespace Verif.Scalar
open Verif.FP Verif.Params Verif.Rules Verif.Endian Verif.Flow

theorem find_fine {v : ℚ} {k : ℤ} (h : Near v k) {d M : ℤ} (hd : d = 1 ∨ d = 10 ∨ d = 100 ∨ d = 1000 ∨ d = 10000)
    (hM : InI32 M) (hk : k * d = M * 10000) {s : BitVec 16} (hs : findScalar v = .ok s) : -d ≤ s.toInt := by
  have hkb : |k| < 2 ^ 46 := by
    obtain ⟨a, b⟩ := hM
    rw [abs_lt]
    rcases hd with rfl | rfl | rfl | rfl | rfl <;> omega
  have ht := near_trunc h hkb
  have hg := near_digits h hkb
  have hip : InI32 (k.tdiv 10000) := by
    obtain ⟨a, b⟩ := hM
    have h1 := Int.mul_tdiv_add_tmod k 10000
    have h2 := Int.tmod_lt_of_pos k (by norm_num : (0 : ℤ) < 10000)
    have h3 := Int.lt_tmod_of_pos k (by norm_num : (0 : ℤ) < 10000)
    unfold InI32
    rcases hd with rfl | rfl | rfl | rfl | rfl <;> omega
  have hip' : InI64 (k.tdiv 10000) := by obtain ⟨a, b⟩ := hip; unfold InI64; omega
  have hf : findScalar v = .ok (smallLoop v (k.tdiv 10000) (k - k.tdiv 10000 * 10000) [1, 10, 100, 1000]) := by
    unfold findScalar
    simp only [ht, hg, if_pos hip, if_pos hip']
  rw [hf, Res.ok.injEq] at hs
  rcases smallLoop_spec v (k.tdiv 10000) (k - k.tdiv 10000 * 10000) [1, 10, 100, 1000] with h1 | ⟨i, hi, h1, h2, -⟩
  · rw [hs] at h1
    rw [h1, show (1#16).toInt = 1 by decide]
    rcases hd with rfl | rfl | rfl | rfl | rfl <;> omega
  · rw [hs] at h2
    rw [Ne, tmod_eq_zero] at h1
    generalize k.tdiv 10000 = q at *
    simp only [List.mem_cons, List.not_mem_nil, or_false] at hi
    rcases hi with rfl | rfl | rfl | rfl
    · rw [h2, show (BitVec.ofInt 16 (Int.tdiv (-10000) 1)).toInt = -10000 by decide]
      rcases hd with rfl | rfl | rfl | rfl | rfl <;> omega
    · rw [h2, show (BitVec.ofInt 16 (Int.tdiv (-10000) 10)).toInt = -1000 by decide]
      rcases hd with rfl | rfl | rfl | rfl | rfl <;> omega
    · rw [h2, show (BitVec.ofInt 16 (Int.tdiv (-10000) 100)).toInt = -100 by decide]
      rcases hd with rfl | rfl | rfl | rfl | rfl <;> omega
    · rw [h2, show (BitVec.ofInt 16 (Int.tdiv (-10000) 1000)).toInt = -10 by decide]
      rcases hd with rfl | rfl | rfl | rfl | rfl <;> omega

/-- An accepted scalar of at most 1 is `1/10^j`. -/
theorem fine_pow {s : BitVec 16} (h : Accepted s) (h1 : s.toInt ≤ 1) :
    ∃ j : ℕ, j ≤ 4 ∧ unit s = 1 / ((10 ^ j : ℤ) : ℚ) ∧ s.toInt = if j = 0 then 1 else -10 ^ j := by
  rcases h with rfl | rfl | rfl | rfl | rfl | rfl | rfl | rfl | rfl
  · exact ⟨0, by norm_num, by rw [unit_one]; norm_num, by decide⟩
  · exact absurd h1 (by decide)
  · exact absurd h1 (by decide)
  · exact absurd h1 (by decide)
  · exact absurd h1 (by decide)
  · exact ⟨1, by norm_num, by rw [unit_neg10]; norm_num, by decide⟩
  · exact ⟨2, by norm_num, by rw [unit_neg100]; norm_num, by decide⟩
  · exact ⟨3, by norm_num, by rw [unit_neg1000]; norm_num, by decide⟩
  · exact ⟨4, by norm_num, by rw [unit_neg10000]; norm_num, by decide⟩

/-- One of at least 1 is `10^j`. -/
theorem coarse_pow {s : BitVec 16} (h : Accepted s) (h1 : 1 ≤ s.toInt) :
    ∃ j : ℕ, j ≤ 4 ∧ unit s = ((10 ^ j : ℤ) : ℚ) ∧ s.toInt = 10 ^ j := by
  have hu : ∀ j : ℕ, s.toInt = 10 ^ j → unit s = ((10 ^ j : ℤ) : ℚ) := by
    intro j hj
    have : (0 : ℤ) < 10 ^ j := by positivity
    unfold unit
    rw [if_neg (by omega), if_pos (by omega), hj]
  by_cases h2 : s.toInt = 1
  · exact ⟨0, by norm_num, hu 0 (by rw [h2]; norm_num), by rw [h2]; norm_num⟩
  · obtain ⟨j, -, h3, h4⟩ := pos_scalar h (by omega)
    exact ⟨j, h3, hu j h4, h4⟩

theorem fits_of_mul {a c : ℤ} (hc : 1 ≤ c) (h : InI32 (a * c)) : InI32 a := by
  obtain ⟨h1, h2⟩ := h
  constructor
  · by_contra hn
    have : a * c ≤ a * 1 := mul_le_mul_of_nonpos_left hc (by omega)
    omega
  · by_contra hn
    have : a * 1 ≤ a * c := mul_le_mul_of_nonneg_left hc (by omega)
    omega

theorem pow_order {i j : ℕ} (h : (if i = 0 then 1 else -10 ^ i : ℤ) ≤ if j = 0 then 1 else -10 ^ j) : j ≤ i := by
  by_contra hn
  have hj : j ≠ 0 := by omega
  rw [if_neg hj] at h
  have hp : (0 : ℤ) < 10 ^ j := by positivity
  split at h
  · omega
  · have : (10 : ℤ) ^ i < 10 ^ j := pow_lt_pow_right₀ (by norm_num) (by omega)
    omega

theorem pow_order' {i j : ℕ} (h : (10 : ℤ) ^ i ≤ 10 ^ j) : i ≤ j := by
  by_contra hn
  have : (10 : ℤ) ^ j < 10 ^ i := pow_lt_pow_right₀ (by norm_num) (by omega)
  omega

/-- The scalar found for a coordinate read with scalar `s` lies between `s` and 1, and with any accepted scalar between
the two the same value is stored. -/
theorem found (s : BitVec 16) (n : BitVec 32) (h : Accepted s) :
    ∃ s', findScalar (decode s n) = .ok s' ∧ Accepted s' ∧
      (s.toInt ≤ 1 → s.toInt ≤ s'.toInt ∧ s'.toInt ≤ 1) ∧ (1 < s.toInt → 1 ≤ s'.toInt ∧ s'.toInt ≤ s.toInt) ∧
      ∀ S, Accepted S → (s.toInt ≤ 1 ∧ s.toInt ≤ S.toInt ∧ S.toInt ≤ s'.toInt) ∨
          (1 < s.toInt ∧ s'.toInt ≤ S.toInt ∧ S.toInt ≤ s.toInt) →
        ∃ n', encode (decode s n) S = .ok n' ∧ unit S * n'.toInt = unit s * n.toInt := by
  have hn : InI32 n.toInt := by
    have a := BitVec.le_toInt n
    have b := BitVec.toInt_lt (x := n)
    norm_num at a b
    exact ⟨by omega, by omega⟩
  have fin : ∀ (k N : ℤ) (S : BitVec 16), Near (decode s n) k → (k : ℚ) / 10000 = unit s * n.toInt →
      unit S * N = k / 10000 → InI32 N →
      ∃ n', encode (decode s n) S = .ok n' ∧ unit S * n'.toInt = unit s * n.toInt := by
    intro k N S hnear hk hu hN
    have hN' : |N| < 2 ^ 46 := by obtain ⟨a, b⟩ := hN; rw [abs_lt]; omega
    refine ⟨BitVec.ofInt 32 N, ?_, ?_⟩
    · unfold encode
      simp only [near_encode hnear hN' hu]
      rw [if_pos ⟨by have := hN.1; omega, by have := hN.2; omega⟩]
    · rw [ofInt32_toInt hN, hu, hk]
  by_cases h1 : s.toInt ≤ 1
  · obtain ⟨d, hd, hu, hge⟩ := neg_scalar h h1
    obtain ⟨j, hj, hju, hjs⟩ := fine_pow h h1
    have hdj : d = 10 ^ j := by
      have hd0 : (d : ℚ) ≠ 0 := by rcases hd with rfl | rfl | rfl | rfl | rfl <;> norm_num
      have hj0 : ((10 ^ j : ℤ) : ℚ) ≠ 0 := by exact_mod_cast (by positivity : (10 : ℤ) ^ j ≠ 0)
      rw [hu, one_div, one_div, inv_inj] at hju
      exact_mod_cast hju
    obtain ⟨k, hk⟩ : ∃ k : ℤ, k * d = n.toInt * 10000 := by
      rcases hd with rfl | rfl | rfl | rfl | rfl
      · exact ⟨n.toInt * 10000, by ring⟩
      · exact ⟨n.toInt * 1000, by ring⟩
      · exact ⟨n.toInt * 100, by ring⟩
      · exact ⟨n.toInt * 10, by ring⟩
      · exact ⟨n.toInt, by ring⟩
    have hnear := near_decode hd hu hge hk
    have hkq : (k : ℚ) / 10000 = unit s * n.toInt := by
      have hd0 : (d : ℚ) ≠ 0 := by rcases hd with rfl | rfl | rfl | rfl | rfl <;> norm_num
      have : (k : ℚ) * d = n.toInt * 10000 := by exact_mod_cast hk
      rw [hu]; field_simp; linarith
    obtain ⟨s', N, a1, a2, a3, a4, a5⟩ := find_decimal hnear hd hn hk
    obtain ⟨j', hj', hju', hjs'⟩ := fine_pow a1 a5
    have hfine := find_fine hnear hd hn hk a2
    have hle : s.toInt ≤ s'.toInt := by
      rw [hjs]
      split
      · rename_i h0
        subst h0
        rw [hdj, hjs'] at hfine
        rw [hjs']
        split at hfine
        · rw [if_pos (by assumption)]
        · rename_i hne
          have : (10 : ℤ) ^ 1 ≤ 10 ^ j' := pow_le_pow_right₀ (by norm_num) (by omega)
          omega
      · rw [← hdj]; exact hfine
    refine ⟨s', a2, a1, fun _ => ⟨hle, a5⟩, fun hc => absurd h1 (by omega), ?_⟩
    rintro S hS (⟨-, b1, b2⟩ | ⟨b1, -⟩)
    · obtain ⟨J, hJ, hJu, hJs⟩ := fine_pow hS (by omega)
      rw [hjs, hJs] at b1
      rw [hJs, hjs'] at b2
      have o1 := pow_order b1
      have o2 := pow_order b2
      obtain ⟨p, rfl⟩ : ∃ p, J = j' + p := ⟨J - j', by omega⟩
      obtain ⟨q, rfl⟩ : ∃ q, j = j' + p + q := ⟨j - (j' + p), by omega⟩
      have t1 : ((10 : ℚ) ^ j') ≠ 0 := by positivity
      have t2 : ((10 : ℚ) ^ p) ≠ 0 := by positivity
      have t3 : ((10 : ℚ) ^ q) ≠ 0 := by positivity
      have hM : unit S * ((N * 10 ^ p : ℤ) : ℚ) = k / 10000 := by
        rw [← a3, hJu, hju', pow_add]
        push_cast
        field_simp
      refine fin k (N * 10 ^ p) S hnear hkq hM (fits_of_mul (c := 10 ^ q) ?_ ?_)
      · exact one_le_pow₀ (by norm_num)
      · have hmn : N * 10 ^ p * 10 ^ q = n.toInt := by
          have : ((N * 10 ^ p : ℤ) : ℚ) * 10 ^ q = n.toInt := by
            rw [hkq, hju, hJu] at hM
            rw [pow_add _ (j' + p) q] at hM
            have t4 : ((10 : ℚ) ^ (j' + p)) ≠ 0 := by positivity
            push_cast at hM ⊢
            field_simp at hM
            linarith
          exact_mod_cast this
        rw [hmn]; exact hn
    · omega
  · have h1 : 1 < s.toInt := by omega
    obtain ⟨j, hj4, hu, hj⟩ := coarse_pow h (by omega)
    have hps : parseScalar s = ((10 ^ j : ℤ) : ℚ) := by
      unfold parseScalar; rw [if_neg (by omega), if_pos (by omega), hj]
    have hpow : (10 : ℤ) ^ j = 1 ∨ (10 : ℤ) ^ j = 10 ∨ (10 : ℤ) ^ j = 100 ∨ (10 : ℤ) ^ j = 1000 ∨ (10 : ℤ) ^ j = 10000 := by
      have : j = 0 ∨ j = 1 ∨ j = 2 ∨ j = 3 ∨ j = 4 := by omega
      rcases this with rfl | rfl | rfl | rfl | rfl <;> norm_num
    have hvb : |(10 : ℤ) ^ j * n.toInt| < 2 ^ 53 := by
      obtain ⟨a, b⟩ := hn
      rw [abs_lt]
      rcases hpow with e | e | e | e | e <;> rw [e] <;> omega
    have hv : decode s n = ((10 ^ j * n.toInt : ℤ) : ℚ) := by
      unfold decode
      rw [hps, ← Int.cast_mul, rnd_int hvb]
    have hnear : Near (decode s n) (10 ^ j * n.toInt * 10000) := by
      have e : ((10 ^ j * n.toInt * 10000 : ℤ) : ℚ) / 10000 = ((10 ^ j * n.toInt : ℤ) : ℚ) := by
        rw [Int.cast_mul (10 ^ j * n.toInt) 10000, Int.cast_ofNat]
        field_simp
      unfold Near
      rw [hv, e]
      refine ⟨?_, fun _ => le_refl _⟩
      rw [sub_self, abs_zero]
      positivity
    have hkq : ((10 ^ j * n.toInt * 10000 : ℤ) : ℚ) / 10000 = unit s * n.toInt := by
      rw [hu]; push_cast; field_simp
    -- storing with `10^i`
    have store : ∀ (S : BitVec 16) (i l : ℕ), unit S = ((10 ^ i : ℤ) : ℚ) → j = i + l → InI32 (10 ^ l * n.toInt) →
        ∃ n', encode (decode s n) S = .ok n' ∧ unit S * n'.toInt = unit s * n.toInt := by
      intro S i l hS hil hN
      refine fin _ (10 ^ l * n.toInt) S hnear hkq ?_ hN
      rw [hkq, hS, hu, hil, pow_add]
      push_cast
      ring
    by_cases hI : InI32 (10 ^ j * n.toInt)
    · obtain ⟨s', N, a1, a2, a3, a4, a5⟩ := find_decimal hnear (d := 1) (M := 10 ^ j * n.toInt) (by simp) hI (by ring)
      have hfine := find_fine hnear (d := 1) (M := 10 ^ j * n.toInt) (by simp) hI (by ring) a2
      have hs1 : s'.toInt = 1 := by
        obtain ⟨j', -, -, hjs'⟩ := fine_pow a1 a5
        rw [hjs'] at hfine ⊢
        split at hfine
        · rw [if_pos (by assumption)]
        · rename_i hne
          have : (10 : ℤ) ^ 1 ≤ 10 ^ j' := pow_le_pow_right₀ (by norm_num) (by omega)
          omega
      refine ⟨s', a2, a1, fun hc => by omega, fun _ => ⟨by omega, by omega⟩, ?_⟩
      rintro S hS (⟨b1, -⟩ | ⟨-, b1, b2⟩)
      · omega
      · obtain ⟨i, hi, hiu, his⟩ := coarse_pow hS (by omega)
        rw [his, hj] at b2
        obtain ⟨l, rfl⟩ : ∃ l, j = i + l := ⟨j - i, by have := pow_order' b2; omega⟩
        refine store S i l hiu rfl (fits_of_mul (c := 10 ^ i) (one_le_pow₀ (by norm_num)) ?_)
        rw [pow_add] at hI
        rw [show (10 : ℤ) ^ l * n.toInt * 10 ^ i = 10 ^ i * 10 ^ l * n.toInt by ring]
        exact hI
    · have ht : trunc (decode s n) = 10 ^ j * n.toInt := by
        rw [hv]; unfold trunc
        split
        · exact Int.floor_intCast _
        · rw [← Int.cast_neg, Int.floor_intCast, neg_neg]
      have hbig : InI32 ((trunc (decode s n)).tdiv 10000) := by
        rw [ht]
        have h1 := Int.mul_tdiv_add_tmod (10 ^ j * n.toInt) 10000
        have h2 := Int.tmod_lt_of_pos (10 ^ j * n.toInt) (by norm_num : (0 : ℤ) < 10000)
        have h3 := Int.lt_tmod_of_pos (10 ^ j * n.toInt) (by norm_num : (0 : ℤ) < 10000)
        obtain ⟨a, b⟩ := hn
        unfold InI32
        rcases hpow with e | e | e | e | e <;> rw [e] at h1 h2 h3 ⊢ <;> omega
      obtain ⟨s', i', b1, b2, b3, b4, b5, b6⟩ := C14_large_partial (decode s n) (by rw [ht]; exact hI) hbig
      rw [ht] at b5 b6
      have hij : i' ≤ j := by
        by_contra hc
        have hc : j < i' := lt_of_not_ge hc
        refine b6 j hc ?_
        rw [Int.mul_tdiv_cancel_left _ (by positivity)]
        exact hn
      have ha : Accepted s' := by
        obtain ⟨s'', c1, c2⟩ := C14_power_partial (decode s n) hbig
        rw [b1] at c1; cases c1; exact c2
      have hp : (10 : ℤ) ^ 1 ≤ 10 ^ i' := pow_le_pow_right₀ (by norm_num) b2
      refine ⟨s', b1, ha, fun hc => by omega, fun _ => ⟨by omega, ?_⟩, ?_⟩
      · rw [b4, hj]; exact pow_le_pow_right₀ (by norm_num) hij
      · rintro S hS (⟨c1, -⟩ | ⟨-, c1, c2⟩)
        · omega
        · obtain ⟨i, hi, hiu, his⟩ := coarse_pow hS (by omega)
          rw [his, hj] at c2
          rw [b4, his] at c1
          have o1 := pow_order' c1
          have o2 := pow_order' c2
          obtain ⟨p, rfl⟩ : ∃ p, i = i' + p := ⟨i - i', by omega⟩
          obtain ⟨l, rfl⟩ : ∃ l, j = i' + p + l := ⟨j - (i' + p), by omega⟩
          refine store S (i' + p) l hiu rfl (fits_of_mul (c := 10 ^ p) (one_le_pow₀ (by norm_num)) ?_)
          rw [show (10 : ℤ) ^ (i' + p + l) * n.toInt = 10 ^ i' * (10 ^ l * n.toInt * 10 ^ p) by ring,
            Int.mul_tdiv_cancel_left _ (by positivity)] at b5
          exact b5

theorem parse_le (s : BitVec 16) : parseScalar s ≤ 2 ^ 15 := by
  have hb := toInt_bounds s
  unfold parseScalar
  split
  · norm_num
  · split
    · have : (s.toInt : ℚ) ≤ ((2 ^ 15 : ℤ) : ℚ) := by exact_mod_cast (by omega)
      exact this.trans (by norm_num)
    · have h1 : (1 : ℚ) / ((-s.toInt : ℤ) : ℚ) ≤ ((1 : ℤ) : ℚ) := by
        have : (1 : ℚ) ≤ ((-s.toInt : ℤ) : ℚ) := by exact_mod_cast (by omega)
        rw [Int.cast_one, div_le_one (by linarith)]
        exact this
      refine (rnd_le (isDouble_int (by norm_num)) h1).trans (by norm_num)

/-- What a header can say is at most `2^46`. -/
theorem decode_le (s : BitVec 16) (n : BitVec 32) : |decode s n| ≤ 2 ^ 46 := by
  have h1 := parse_le s
  have h2 := parse_pos s
  have a := BitVec.le_toInt n
  have b := BitVec.toInt_lt (x := n)
  norm_num at a b
  have a' : (-2147483648 : ℚ) ≤ n.toInt := by exact_mod_cast a
  have b' : (n.toInt : ℚ) ≤ 2147483648 := by exact_mod_cast (by omega)
  have hd : IsDouble ((2 ^ 46 : ℤ) : ℚ) := isDouble_int (by norm_num)
  have hd' : IsDouble ((-2 ^ 46 : ℤ) : ℚ) := isDouble_int (by norm_num)
  unfold decode
  generalize parseScalar s = q at *
  generalize (n.toInt : ℚ) = x at *
  rw [abs_le]
  constructor
  · have h : ((-2 ^ 46 : ℤ) : ℚ) ≤ q * x := by
      have : q * (-2147483648) ≤ q * x := mul_le_mul_of_nonneg_left a' (le_of_lt h2)
      push_cast
      norm_num at h1 ⊢
      linarith
    have := rnd_ge hd' h
    push_cast at this
    exact this
  · have h : q * x ≤ ((2 ^ 46 : ℤ) : ℚ) := by
      have : q * x ≤ q * 2147483648 := mul_le_mul_of_nonneg_left b' (le_of_lt h2)
      push_cast
      norm_num at h1 ⊢
      linarith
    have := rnd_le hd h
    push_cast at this
    exact this

/-- Coordinates read from a header can be written with any scalar. -/
theorem convertible : Convertible dbl := fun s n =>
  ⟨find_total _ (decode_le s n), fun s' => encode_total _ (decode_le s n) s'⟩

/-- A scalar 0 counts as 1. -/
def Usable (s : BitVec 16) : Prop := Accepted s ∨ s = 0#16

theorem usable_as {s : BitVec 16} (h : Usable s) : ∃ s1, Accepted s1 ∧ (∀ n, decode s n = decode s1 n) ∧
    unit s = unit s1 ∧ (0 ≤ s.toInt → 1 ≤ s1.toInt) := by
  rcases h with h | rfl
  · refine ⟨s, h, fun _ => rfl, rfl, ?_⟩
    rcases h with rfl | rfl | rfl | rfl | rfl | rfl | rfl | rfl | rfl <;> decide
  · refine ⟨1#16, Or.inl rfl, fun n => ?_, ?_, fun _ => by decide⟩
    · have : parseScalar 0#16 = parseScalar 1#16 := by
        unfold parseScalar
        rw [if_pos (by decide), if_neg (by decide), if_pos (by decide), show (1#16).toInt = 1 by decide, Int.cast_one]
      unfold decode; rw [this]
    · rw [unit_one]; unfold unit; rw [if_pos (by decide)]

/-- All coordinates that share a scalar field, written: the values are those of some header with the scalar `s0`. -/
theorem again_values {p : Param ℚ} {row base' : Nat} {h' : Arr Byte} {fs : ℚ → BitVec 16}
    {en : ℚ → BitVec 16 → BitVec 32} (hfs : ∀ v s, findScalar v = .ok s → fs v = s)
    (hen : ∀ v s n, encode v s = .ok n → en v s = n)
    (hh : Holds fs en p row base' h') {m : Nat} {e : Entry} (he : (m, some e) ∈ p.rule.map) (hk : e.kind = .float)
    {s0 : BitVec 16} {n : BitVec 32} (ha : Usable s0)
    (hmem : ∀ x, x ∈ floatsOf p.rule.map → x.scalLoc = e.scalLoc → ∃ n : BitVec 32, fval p row x = decode s0 n)
    (hfloat : fval p row e = decode s0 n) :
    Accepted (val16 h' (base' + (e.scalLoc - 1))) ∧
      unit (val16 h' (base' + (e.scalLoc - 1))) * (val32 h' (base' + (e.loc - 1))).toInt = unit s0 * n.toInt ∧
      (0 ≤ s0.toInt → 1 ≤ (val16 h' (base' + (e.scalLoc - 1))).toInt) := by
  obtain ⟨q1, q2⟩ := (hh m e he).2.2 hk
  rw [q1, q2]
  have hin : e ∈ floatsOf p.rule.map := mem_floatsOf.2 ⟨m, he, hk⟩
  obtain ⟨s, ha, hds, hus, hpos⟩ := usable_as ha
  simp only [hds] at hmem hfloat
  rw [hus]
  obtain ⟨f1, f2, f3⟩ := fold_spec fs p row e.scalLoc (floatsOf p.rule.map) 1#16
  have hS : scalarOf fs p row e.scalLoc = scalFold fs p row (floatsOf p.rule.map) e.scalLoc 1#16 := rfl
  rw [← hS] at f1 f2 f3
  generalize scalarOf fs p row e.scalLoc = S at *
  have hone : (1#16 : BitVec 16).toInt = 1 := by decide
  have hsacc : Accepted S ∧ (s.toInt ≤ 1 → s.toInt ≤ S.toInt ∧ S.toInt ≤ 1) ∧ (1 < s.toInt → 1 ≤ S.toInt ∧ S.toInt ≤ s.toInt) := by
    rcases f3 with h3 | ⟨x, hx, hxs, h3⟩
    · rw [h3, hone]
      exact ⟨Or.inl rfl, fun h => ⟨h, Int.le_refl _⟩, fun h => ⟨Int.le_refl _, by omega⟩⟩
    · obtain ⟨n', hn'⟩ := hmem x hx hxs
      obtain ⟨s', g1, g2, g3, g4, -⟩ := found s n' ha
      rw [hn', hfs _ _ g1] at h3
      rw [h3]
      exact ⟨g2, g3, g4⟩
  obtain ⟨s', g1, g2, g3, g4, g5⟩ := found s n ha
  have hfe : fs (fval p row e) = s' := by rw [hfloat]; exact hfs _ _ g1
  obtain ⟨n', e1, e2⟩ := g5 S hsacc.1 (by
    by_cases h1 : s.toInt ≤ 1
    · have := hsacc.2.1 h1
      have h2 := ((f1 this.2).2.2 e hin rfl).1
      rw [hfe] at h2
      exact Or.inl ⟨h1, this.1, h2⟩
    · have h1 : 1 < s.toInt := by omega
      have := hsacc.2.2 h1
      refine Or.inr ⟨h1, ?_, this.2⟩
      by_cases h2 : S.toInt ≤ 1
      · have h3 := ((f1 h2).2.2 e hin rfl).2
        rw [hfe] at h3
        omega
      · have h3 := (f2 (by omega)).2 e hin rfl
        rw [hfe] at h3
        exact h3)
  refine ⟨hsacc.1, ?_, fun h0 => ?_⟩
  · rw [hfloat, hen _ _ _ e1, e2]
  · have h1 := hpos h0
    by_cases h2 : s.toInt ≤ 1
    · have := (hsacc.2.1 h2).1; omega
    · exact (hsacc.2.2 (by omega)).1

/-- All coordinates that share a scalar field, read and written again. -/
theorem again_coords {p : Param ℚ} {row base base' : Nat} {h h' : Arr Byte} {fs : ℚ → BitVec 16}
    {en : ℚ → BitVec 16 → BitVec 32} (hfs : ∀ v s, findScalar v = .ok s → fs v = s)
    (hen : ∀ v s n, encode v s = .ok n → en v s = n) (hd : Decoded dbl h row base p p.rule.map)
    (hh : Holds fs en p row base' h') {m : Nat} {e : Entry} (he : (m, some e) ∈ p.rule.map) (hk : e.kind = .float)
    (ha : Usable (val16 h (base + (e.scalLoc - 1)))) :
    Accepted (val16 h' (base' + (e.scalLoc - 1))) ∧
      unit (val16 h' (base' + (e.scalLoc - 1))) * (val32 h' (base' + (e.loc - 1))).toInt =
        unit (val16 h (base + (e.scalLoc - 1))) * (val32 h (base + (e.loc - 1))).toInt ∧
      (0 ≤ (val16 h (base + (e.scalLoc - 1))).toInt → 1 ≤ (val16 h' (base' + (e.scalLoc - 1))).toInt) := by
  refine again_values hfs hen hh he hk ha ?_ ((hd m e he).2.2 hk)
  intro x hx hs
  obtain ⟨m', h1, h2⟩ := mem_floatsOf.1 hx
  refine ⟨val32 h (base + (x.loc - 1)), ?_⟩
  have := (hd m' x h1).2.2 h2
  rw [hs] at this
  exact this

/-- **C53**: whole headers. Reading the headers of any number of traces with any rule and writing them again keeps the value
(scalar times integer) of every coordinate, although coordinates share scalar fields and the scalar written may be another
than the one read, if the scalars in the headers are accepted powers of ten or 0 (which counts as 1). -/
theorem C53_header (p : Param ℚ) (b : Arr Byte) (sz stride : Nat) (hreach : Reachable p.rule) (hp : WF p)
    (hl : HdrLayout p.rule) (hfull : p.rule.fullextent = true) (hsz : p.sz = sz)
    (hb : (240 + stride) * sz ≤ b.len) (hb' : b.len ≤ 2 ^ 64)
    (ha : ∀ t m loc scal, t < sz → abs p.rule m = some (.float, loc, scal) →
      Usable (val16 b ((240 + stride) * t + (scal - 1)))) :
    ∃ p' b', extractParam dbl sz b 0 p stride 0 = .ok p' ∧ insertParam dbl sz p' b stride 0 = .ok (b', p.rule) ∧
      ∀ t m loc scal, t < sz → abs p.rule m = some (.float, loc, scal) →
        Accepted (val16 b' ((240 + stride) * t + (scal - 1))) ∧
        unit (val16 b' ((240 + stride) * t + (scal - 1))) * (val32 b' ((240 + stride) * t + (loc - 1))).toInt =
          unit (val16 b ((240 + stride) * t + (scal - 1))) * (val32 b ((240 + stride) * t + (loc - 1))).toInt := by
  have hst := reach_start hreach hfull
  obtain ⟨q, f1, f2, f3, f4, -, -, -, -⟩ := extractParam_spec dbl b 0 sz stride 0 p hp hl hfull hst (by omega) (by omega) hb'
  have hwf := f2.wf hp f3
  have hqr : q.rule = p.rule := f2.rule
  have hval : ∀ x, x < q.f.len → ∃ s n, q.f.val x = decode s n := by
    intro x hx
    rw [hwf.f, hqr, f2.sz, hsz] at hx
    have hpos : 0 < p.rule.cnt .float := by
      rcases Nat.eq_zero_or_pos (p.rule.cnt .float) with h | h
      · rw [h] at hx; omega
      · exact h
    obtain ⟨m, e, hm, hk, hnum⟩ := slot_of hreach.inv .float (Nat.mod_lt x hpos)
    have hj : x / p.rule.cnt .float < sz := by rw [Nat.div_lt_iff_lt_mul hpos]; exact hx
    have := (f4 _ hj m e hm).2.2 hk
    rw [hqr, hnum, Nat.add_zero, Nat.div_add_mod'] at this
    exact ⟨_, _, this⟩
  obtain ⟨b', e1, e2, e3, -, -⟩ := insertParam_spec dbl (fun v => okOr 1#16 (findScalar v))
    (fun v s => okOr 0#32 (encode v s)) q hwf (by rw [hqr]; exact hl) stride 0 sz
    (fun x hx => by
      obtain ⟨s, n, h⟩ := hval x hx
      obtain ⟨s', h'⟩ := (convertible s n).1
      rw [h]; rw [show dbl.decode s n = decode s n from rfl] at h'
      show findScalar _ = _
      rw [show findScalar (decode s n) = .ok s' from h']; rfl)
    (fun x hx v => by
      obtain ⟨s, n, h⟩ := hval x hx
      obtain ⟨n', h'⟩ := (convertible s n).2 v
      rw [h]; rw [show dbl.decode s n = decode s n from rfl] at h'
      show encode _ _ = _
      rw [show encode (decode s n) v = .ok n' from h']; rfl)
    (by rw [hqr]; exact hfull) (by rw [hqr]; exact hst) b (by rw [f2.sz]; omega) hb hb'
  rw [hqr] at e1
  refine ⟨q, b', f1, e1, ?_⟩
  intro t m loc scal ht hm
  obtain ⟨e, he, hv⟩ := entry_of_abs hm
  have hacc := ha t m loc scal ht hm
  simp only [entryVal, Prod.mk.injEq] at hv
  obtain ⟨hk, rfl, rfl⟩ := hv
  have hdec := f4 t ht
  rw [Nat.zero_add] at hdec
  have := again_coords (fs := fun v => okOr 1#16 (findScalar v)) (en := fun v s => okOr 0#32 (encode v s))
    (fun v s h => by show okOr 1#16 (findScalar v) = s; rw [h]; rfl)
    (fun v s n h => by show okOr 0#32 (encode v s) = n; rw [h]; rfl)
    (by rw [hqr]; exact hdec) (e3 t ht) (by rw [hqr]; exact he) hk hacc
  exact ⟨this.1, this.2.1⟩

/-- Source coordinates of two traces with the scalar -100: `0x00000507` hundredths, read and written again. -/
example : ∃ (p p' : Param ℚ) (b b' : Arr Byte), abs p.rule 20 = some (.float, 73, 71) ∧ abs p.rule 21 = some (.float, 77, 71) ∧
    extractParam dbl 2 b 0 p 0 0 = .ok p' ∧ insertParam dbl 2 p' b 0 0 = .ok (b', p.rule) ∧
    unit (val16 b' 310) * (val32 b' 312).toInt = 1287 / 100 := by
  obtain ⟨r, h⟩ : ∃ r, ctor [20, 21] true false false = .ok r := ⟨_, rfl⟩
  have hreach : Reachable r := Reach.ctor h trivial
  have hm : ∀ p ∈ r.map, ∃ e, p.2 = some e ∧ (e.kind = .index ∨ known p.1 = some (entryVal e) ∧ e.scalLoc = 71) := by
    cases h; decide +kernel
  have hk : KnownOnly r := by
    intro m v hv
    obtain ⟨e, he, rfl⟩ := entry_of_abs hv
    obtain ⟨e', h1, h2⟩ := hm _ he
    cases h1
    rcases h2 with h2 | h2
    · exact Or.inl h2
    · exact Or.inr h2.1
  let b : Arr Byte := ⟨480, fun x => if x % 240 = 70 then 0xff#8 else if x % 240 = 71 then 0x9c#8
    else if x % 240 = 74 then 5#8 else if x % 240 = 75 then 7#8 else 0#8⟩
  have hacc : ∀ t, t < 2 → val16 b ((240 + 0) * t + (71 - 1)) = BitVec.ofInt 16 (-100) := by
    intro t ht
    have : t = 0 ∨ t = 1 := by omega
    rcases this with rfl | rfl <;> decide +kernel
  obtain ⟨p', b', e1, e2, e3⟩ := C53_header (mk 0 r 2) b 2 0 hreach (mk_wf _ hreach.inv _) (C12_known_layout r hreach.inv hk)
    (by cases h; rfl) rfl (by show 480 ≤ 480; omega) (by show 480 ≤ 2 ^ 64; omega) (by
      intro t m loc scal ht ha
      have hs : scal = 71 := by
        obtain ⟨e, he, hv⟩ := entry_of_abs ha
        obtain ⟨e', h1, h2⟩ := hm _ he
        cases h1
        simp only [entryVal, Prod.mk.injEq] at hv
        rcases h2 with h2 | h2
        · rw [hv.1] at h2; cases h2
        · rw [← hv.2.2]; exact h2.2
      rw [hs, hacc t ht]
      simp [Usable, Accepted])
  have h20 : abs r 20 = some (.float, 73, 71) := by cases h; rfl
  refine ⟨mk 0 r 2, p', b, b', h20, by cases h; rfl, e1, e2, ?_⟩
  have := (e3 1 20 73 71 (by omega) h20).2
  rw [hacc 1 (by omega)] at this
  have hv : (val32 b ((240 + 0) * 1 + (73 - 1))).toInt = 1287 := by decide +kernel
  have hu : unit (BitVec.ofInt 16 (-100)) = 1 / 100 := by
    have : (BitVec.ofInt 16 (-100)).toInt = -100 := by decide
    unfold unit; rw [this]; norm_num
  rw [hv, hu] at this
  refine Eq.trans this ?_
  norm_num

end Verif.Scalar
