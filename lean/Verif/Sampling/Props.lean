import Verif.Sampling.Model
import Mathlib.Tactic.Ring
import Mathlib.Tactic.Positivity

/-! # Properties C35 and C37 -/

namespace Verif.Sampling

set_option linter.unusedSectionVars false

/-! ## C35: powers of two -/

/-- **C35**: exactly the powers of two are recognised. -/
theorem isSizePowerOf2_iff (n : Nat) : isSizePowerOf2 n = true ↔ ∃ k, n = 2 ^ k := by
  have h := @Nat.ne_zero_and_sub_one_eq_zero_iff_isPowerOfTwo n
  simp only [isSizePowerOf2, Bool.and_eq_true, decide_eq_true_eq, beq_iff_eq, gt_iff_lt,
    Nat.pos_iff_ne_zero]
  rw [show (∃ k, n = 2 ^ k) ↔ n.isPowerOfTwo from Iff.rfl, ← h]

example : isSizePowerOf2 1024 = true ∧ isSizePowerOf2 1000 = false ∧ isSizePowerOf2 0 = false := by decide

/-- Specification: the least power of two that is not below `n`. -/
def IsNextPower (n p : Nat) : Prop := (∃ k, p = 2 ^ k) ∧ n ≤ p ∧ ∀ j, n ≤ 2 ^ j → p ≤ 2 ^ j

theorem isNextPower_clog (n : Nat) : IsNextPower n (2 ^ Nat.clog 2 n) :=
  ⟨⟨_, rfl⟩, Nat.le_pow_clog (by omega) n,
    fun j h => Nat.pow_le_pow_right (by omega) ((Nat.clog_le_iff_le_pow (by omega)).mpr h)⟩

theorem sizeFromQuotient_of_ceil (q : ℝ) (k : Nat) (h : ⌈q⌉ = (k : ℤ)) : sizeFromQuotient q = 2 ^ k := by
  unfold sizeFromQuotient
  rw [h, zpow_natCast]
  have : ((2 : ℝ) ^ k) = ((2 ^ k : ℕ) : ℝ) := by push_cast; rfl
  rw [this, Nat.floor_natCast]

theorem ceil_quotient (n : Nat) : ⌈Real.log n / Real.log 2⌉ = (Nat.clog 2 n : ℤ) := by
  have h := Real.ceil_logb_natCast (b := 2) (r := (n : ℝ)) (Nat.cast_nonneg n)
  rw [Int.clog_natCast] at h
  rw [← h]; rfl

/-- **C35**: with exact logarithms the rounded size is the next power of two, for every size. -/
theorem roundUpSize_next (n : Nat) (hn : 0 < n) : IsNextPower n (roundUpSize n) := by
  unfold roundUpSize
  rw [if_neg (by omega), sizeFromQuotient_of_ceil _ _ (ceil_quotient n)]
  exact isNextPower_clog n

/-- **C35**: a size is kept exactly when it is a power of two. -/
theorem roundUpSize_fixed_iff (n : Nat) (hn : 0 < n) : roundUpSize n = n ↔ isSizePowerOf2 n = true := by
  rw [isSizePowerOf2_iff]
  obtain ⟨⟨k, hk⟩, h2, h3⟩ := roundUpSize_next n hn
  constructor
  · intro h; exact ⟨k, by rw [← hk, h]⟩
  · rintro ⟨j, hj⟩
    have := h3 j (by omega)
    omega

/-- **C35**: the result is always recognised as a power of two. -/
theorem roundUpSize_isPower (n : Nat) (hn : 0 < n) : isSizePowerOf2 (roundUpSize n) = true :=
  (isSizePowerOf2_iff _).mpr (roundUpSize_next n hn).1

/-- **C35** (robustness): if the computed quotient of logarithms is off by at most `1/(2n)`, the result is
still the next power of two, except that an exact power of two may be doubled (never the other way round). -/
theorem roundUp_robust (n : Nat) (hn : 0 < n) (q : ℝ)
    (hq : |q - Real.log n / Real.log 2| ≤ 1 / (2 * n)) :
    IsNextPower n (sizeFromQuotient q) ∨
      (∃ k : Nat, n = 2 ^ k ∧ (k : ℝ) < q ∧ sizeFromQuotient q = 2 * n) := by
  have hl2 : 0 < Real.log 2 := Real.log_pos (by norm_num)
  have hl2' : Real.log 2 < 1 := lt_trans Real.log_two_lt_d9 (by norm_num)
  have hnR : (0 : ℝ) < n := by exact_mod_cast hn
  have hn1 : (1 : ℝ) ≤ n := by exact_mod_cast hn
  obtain ⟨hq1, hq2⟩ := abs_le.mp hq
  have hinv : (1 : ℝ) / (2 * n) ≤ 1 / 2 := by
    apply one_div_le_one_div_of_le <;> linarith
  have hinvpos : (0 : ℝ) < 1 / (2 * n) := by positivity
  set k := Nat.clog 2 n with hk
  have hle : n ≤ 2 ^ k := Nat.le_pow_clog (by omega) n
  -- the quotient stays above k - 1
  have hlow : (k : ℝ) - 1 < q := by
    by_cases h1 : n ≤ 1
    · have : n = 1 := by omega
      have hk0 : k = 0 := by rw [hk, this]; simp
      rw [hk0]; subst this; simp at hq1 hinv ⊢; linarith
    · have hkpos : 0 < k := Nat.clog_pos (by omega) (by omega)
      have hlt : 2 ^ (k - 1) < n := by
        have := Nat.pow_pred_clog_lt_self (b := 2) (by omega) (x := n) (by omega)
        simpa using this
      have hlt' : (2 : ℝ) ^ (k - 1) + 1 ≤ n := by exact_mod_cast hlt
      have hppos : (0 : ℝ) < 2 ^ (k - 1) := by positivity
      have hbound := Real.one_sub_inv_le_log_of_pos (x := n / 2 ^ (k - 1)) (by positivity)
      rw [Real.log_div hnR.ne' hppos.ne', Real.log_pow, inv_div] at hbound
      have h3 : 1 / (n : ℝ) ≤ 1 - 2 ^ (k - 1) / n := by
        rw [div_le_iff₀ hnR, sub_mul, div_mul_cancel₀ _ hnR.ne']; linarith
      have h4 : (1 : ℝ) / n ≤ Real.log n / Real.log 2 - ((k - 1 : ℕ) : ℝ) := by
        have h5 : Real.log n / Real.log 2 - ((k - 1 : ℕ) : ℝ)
            = (Real.log n - ((k - 1 : ℕ) : ℝ) * Real.log 2) / Real.log 2 := by
          field_simp
        rw [h5, le_div_iff₀ hl2]
        have h6 : (1 : ℝ) / n * Real.log 2 ≤ 1 / n * 1 :=
          mul_le_mul_of_nonneg_left hl2'.le (by positivity)
        linarith
      have h7 : ((k - 1 : ℕ) : ℝ) = (k : ℝ) - 1 := by
        rw [Nat.cast_sub hkpos]; simp
      rw [h7] at h4
      have h8 : (1 : ℝ) / (2 * n) = 1 / n / 2 := by field_simp
      have h9 : (0 : ℝ) < 1 / n := by positivity
      rw [h8] at hq1; linarith
  have hLk : Real.log n / Real.log 2 ≤ k := by
    rw [div_le_iff₀ hl2, ← Real.log_pow]
    exact Real.log_le_log hnR (by exact_mod_cast hle)
  by_cases hqk : q ≤ k
  · left
    have : ⌈q⌉ = (k : ℤ) := by
      rw [Int.ceil_eq_iff]; push_cast; exact ⟨hlow, hqk⟩
    rw [sizeFromQuotient_of_ceil q k this]
    exact isNextPower_clog n
  · right
    have hqk' : (k : ℝ) < q := not_le.mp hqk
    have hpow : n = 2 ^ k := by
      by_contra hne
      have hlt : n + 1 ≤ 2 ^ k := by omega
      have hk1 : 2 ^ k < 2 * n := by
        have h1n : 1 < n := by
          by_contra h
          have : n = 1 := by omega
          rw [this] at hk hne
          simp at hk; rw [hk] at hne; simp at hne
        have hkpos : 0 < k := Nat.clog_pos (by omega) (by omega)
        have hlt2 : 2 ^ (k - 1) < n := by
          have := Nat.pow_pred_clog_lt_self (b := 2) (by omega) (x := n) (by omega)
          simpa using this
        have : 2 ^ k = 2 * 2 ^ (k - 1) := by
          conv => lhs; rw [show k = (k - 1) + 1 by omega]
          rw [Nat.pow_succ]; omega
        omega
      have hltR : (n : ℝ) + 1 ≤ 2 ^ k := by exact_mod_cast hlt
      have hk1R : (2 : ℝ) ^ k < 2 * n := by exact_mod_cast hk1
      have hppos : (0 : ℝ) < 2 ^ k := by positivity
      have hbound := Real.one_sub_inv_le_log_of_pos (x := 2 ^ k / n) (by positivity)
      rw [Real.log_div hppos.ne' hnR.ne', Real.log_pow, inv_div] at hbound
      have h3 : 1 / (2 ^ k : ℝ) ≤ 1 - n / 2 ^ k := by
        rw [div_le_iff₀ hppos, sub_mul, div_mul_cancel₀ _ hppos.ne']; linarith
      have h4 : (1 : ℝ) / 2 ^ k ≤ k - Real.log n / Real.log 2 := by
        have h5 : (k : ℝ) - Real.log n / Real.log 2
            = (k * Real.log 2 - Real.log n) / Real.log 2 := by field_simp
        rw [h5, le_div_iff₀ hl2]
        have h6 : (1 : ℝ) / 2 ^ k * Real.log 2 ≤ 1 / 2 ^ k * 1 :=
          mul_le_mul_of_nonneg_left hl2'.le (by positivity)
        linarith
      have h5 : (1 : ℝ) / (2 * n) < 1 / 2 ^ k := one_div_lt_one_div_of_lt hppos hk1R
      linarith
    refine ⟨k, hpow, hqk', ?_⟩
    have hL : Real.log n / Real.log 2 = k := by
      have : (n : ℝ) = 2 ^ k := by exact_mod_cast hpow
      rw [this, Real.log_pow]; field_simp
    have : ⌈q⌉ = ((k + 1 : ℕ) : ℤ) := by
      rw [Int.ceil_eq_iff]; push_cast
      rw [hL] at hq2
      constructor <;> linarith
    rw [sizeFromQuotient_of_ceil q (k + 1) this, hpow, Nat.pow_succ]; omega

/-- The hypotheses are met, e.g., by the exact quotient of any size. -/
example : |Real.log (1000 : ℕ) / Real.log 2 - Real.log (1000 : ℕ) / Real.log 2| ≤ 1 / (2 * ((1000 : ℕ) : ℝ)) := by
  simp

/-- Disagreement with **C35** under floating point: when the computed quotient for a power of two comes out
one rounding unit too large, the size is doubled. In IEEE double arithmetic this happens for `2^29`, where
`log(n)/log(2)` evaluates to `29.000000000000004`. -/
theorem roundUp_doubles_when_quotient_rounds_up (k : Nat) (e : ℝ) (h0 : 0 < e) (h1 : e ≤ 1) :
    sizeFromQuotient ((k : ℝ) + e) = 2 * 2 ^ k := by
  have : ⌈(k : ℝ) + e⌉ = ((k + 1 : ℕ) : ℤ) := by
    rw [Int.ceil_eq_iff]; push_cast; constructor <;> linarith
  rw [sizeFromQuotient_of_ceil _ _ this, Nat.pow_succ]; omega

example : sizeFromQuotient (((29 : ℕ) : ℝ) + 1 / 2 ^ 48) = 2 * 2 ^ 29 :=
  roundUp_doubles_when_quotient_rounds_up 29 _ (by positivity) (by norm_num)

/-! ## C37: spaced arrays -/

section
variable {K : Type} [Field K]

theorem fill_length (h : K) (n : Nat) (v : K) : (fill h n v).length = n := by
  induction n generalizing v with
  | zero => rfl
  | succ n ih => simp [fill, ih]

theorem fill_get (h : K) (n : Nat) (v : K) (i : Nat) (hi : i < n) :
    (fill h n v)[i]? = some (v + i * h) := by
  induction n generalizing v i with
  | zero => omega
  | succ n ih =>
    cases i with
    | zero => simp [fill]
    | succ i =>
      simp only [fill, List.getElem?_cons_succ]
      rw [ih _ _ (by omega)]
      push_cast; congr 1; ring

/-- Specification: sample `i` of `N` equally spaced samples from `a` to `b`. -/
def sample (a b : K) (N i : Nat) : K := a + (i : K) * ((b - a) / ((N : K) - 1))

theorem linearSpaced_get (a b : K) (N i : Nat) (hi : i < N) :
    (linearSpaced a b N)[i]? = some (sample a b N i) := by
  unfold linearSpaced sample
  rw [fill_get _ _ _ _ hi, Nat.cast_sub (by omega)]; simp

/-- **C37**: `linear_spaced_array` returns exactly `N` samples. -/
theorem linearSpaced_length (a b : K) (N : Nat) : (linearSpaced a b N).length = N := fill_length _ _ _

theorem linspace_get (a b : K) (N i : Nat) (hi : i < N) : (linspace a b N)[i]? = some (sample a b N i) := by
  unfold linspace sample
  rw [if_neg (by omega)]
  split
  · rename_i h; subst h
    have : i = 0 := by omega
    subst this; simp
  · simp only
    rw [List.getElem?_map, List.getElem?_range hi, Nat.cast_sub (by omega)]; simp

theorem linspace_length (a b : K) (N : Nat) : (linspace a b N).length = N := by
  unfold linspace
  split
  · rename_i h; subst h; rfl
  · split
    · rename_i h; subst h; rfl
    · simp

/-- **C37**: the two linear arrays are the same list, for every count. -/
theorem linspace_eq_linearSpaced (a b : K) (N : Nat) : linspace a b N = linearSpaced a b N := by
  apply List.ext_getElem?
  intro i
  by_cases hi : i < N
  · rw [linspace_get _ _ _ _ hi, linearSpaced_get _ _ _ _ hi]
  · rw [List.getElem?_eq_none_iff.mpr (by rw [linspace_length]; omega),
      List.getElem?_eq_none_iff.mpr (by rw [linearSpaced_length]; omega)]

variable [LinearOrder K] [IsStrictOrderedRing K]

/-- **C37**: with at least two samples the array starts at `a` and ends at `b`. -/
theorem linearSpaced_ends (a b : K) (N : Nat) (hN : 2 ≤ N) :
    (linearSpaced a b N).head? = some a ∧ (linearSpaced a b N).getLast? = some b := by
  have hne : (N : K) - 1 ≠ 0 := by
    have : (2 : K) ≤ N := by exact_mod_cast hN
    intro h; linarith
  constructor
  · rw [List.head?_eq_getElem?, linearSpaced_get _ _ _ _ (by omega)]; simp [sample]
  · rw [List.getLast?_eq_getElem?, linearSpaced_length, linearSpaced_get _ _ _ _ (by omega)]
    rw [sample, Nat.cast_sub (by omega)]
    congr 1; field_simp; push_cast; ring

/-- **C37**: a single sample is the start. -/
theorem linearSpaced_one (a b : K) : linearSpaced a b 1 = [a] ∧ linearSpaced a b 0 = [] := ⟨rfl, rfl⟩

/-- **C37**: the samples increase strictly when `a < b`. -/
theorem linearSpaced_increasing (a b : K) (hab : a < b) (N : Nat) :
    (linearSpaced a b N).Pairwise (· < ·) := by
  rw [List.pairwise_iff_getElem]
  intro i j hi hj hij
  rw [linearSpaced_length] at hi hj
  have e1 := linearSpaced_get a b N i hi
  have e2 := linearSpaced_get a b N j hj
  rw [List.getElem?_eq_getElem (by rw [linearSpaced_length]; omega)] at e1 e2
  rw [Option.some.inj e1, Option.some.inj e2]
  unfold sample
  have hN : (1 : K) < N := by exact_mod_cast (by omega : 1 < N)
  have hstep : 0 < (b - a) / ((N : K) - 1) := div_pos (by linarith) (by linarith)
  have : (i : K) < j := by exact_mod_cast hij
  nlinarith

end

/-- **C37**: the logarithmic array has `N` samples. -/
theorem logarithmicSpaced_length (a b : ℝ) (N : Nat) : (logarithmicSpaced a b N).length = N := by
  simp [logarithmicSpaced, fill_length]

theorem logarithmicSpaced_eq (a b : ℝ) (N : Nat) :
    logarithmicSpaced a b N = (linearSpaced (Real.logb 10 a) (Real.logb 10 b) N).map (fun v => (10 : ℝ) ^ v) :=
  rfl

/-- **C37**: between positive ends and with at least two samples it starts at `a` and ends at `b`. -/
theorem logarithmicSpaced_ends (a b : ℝ) (ha : 0 < a) (hb : 0 < b) (N : Nat) (hN : 2 ≤ N) :
    (logarithmicSpaced a b N).head? = some a ∧ (logarithmicSpaced a b N).getLast? = some b := by
  obtain ⟨h1, h2⟩ := linearSpaced_ends (Real.logb 10 a) (Real.logb 10 b) N hN
  rw [logarithmicSpaced_eq, List.head?_map, List.getLast?_map, h1, h2]
  simp only [Option.map_some]
  rw [Real.rpow_logb (by norm_num) (by norm_num) ha, Real.rpow_logb (by norm_num) (by norm_num) hb]
  exact ⟨rfl, rfl⟩

/-- **C37**: it increases strictly, and every sample is positive. -/
theorem logarithmicSpaced_increasing (a b : ℝ) (ha : 0 < a) (hab : a < b) (N : Nat) :
    (logarithmicSpaced a b N).Pairwise (· < ·) ∧ ∀ x ∈ logarithmicSpaced a b N, 0 < x := by
  constructor
  · rw [logarithmicSpaced_eq, List.pairwise_map]
    refine (linearSpaced_increasing _ _ (Real.logb_lt_logb (by norm_num) ha hab) N).imp ?_
    intro x y hxy
    exact Real.rpow_lt_rpow_of_exponent_lt (by norm_num) hxy
  · intro x hx
    rw [logarithmicSpaced_eq, List.mem_map] at hx
    obtain ⟨v, _, rfl⟩ := hx
    positivity

/-- **C37**: neighbouring samples have a constant ratio. -/
theorem logarithmicSpaced_ratio (a b : ℝ) (ha : 0 < a) (hb : 0 < b) (N i : Nat) (hi : i + 1 < N) (x y : ℝ)
    (hx : (logarithmicSpaced a b N)[i]? = some x) (hy : (logarithmicSpaced a b N)[i + 1]? = some y) :
    y = x * (b / a) ^ (1 / ((N : ℝ) - 1)) := by
  rw [logarithmicSpaced_eq, List.getElem?_map, linearSpaced_get _ _ _ _ (by omega)] at hx hy
  simp only [Option.map_some, Option.some.injEq] at hx hy
  rw [← hx, ← hy]
  unfold sample
  have h1 : (b / a) = (10 : ℝ) ^ (Real.logb 10 b - Real.logb 10 a) := by
    rw [Real.rpow_sub (by norm_num), Real.rpow_logb (by norm_num) (by norm_num) ha,
      Real.rpow_logb (by norm_num) (by norm_num) hb]
  rw [h1, ← Real.rpow_mul (by norm_num), ← Real.rpow_add (by norm_num)]
  congr 1; push_cast; ring

example : linearSpaced (0 : ℚ) 1 5 = [0, 1/4, 1/2, 3/4, 1] := by
  norm_num [linearSpaced, fill]

example : (0 : ℝ) < 1 ∧ (1 : ℝ) < 100 ∧ 2 ≤ 3 := by norm_num

end Verif.Sampling
