import Verif.StrayCapacitance.NetworkProps
import Mathlib.Algebra.Order.Floor.Ring

/-!
# The capacitance of one layer

C148.
-/

set_option linter.unusedSectionVars false

namespace Verif.StrayCapacitance

variable {K : Type} [Field K] [LinearOrder K] [IsStrictOrderedRing K]

/-! ## Steps of the ladder -/

/-- How far a value is from one which does not change with more turns. -/
def offset (t s v : K) : K := v ^ 2 - s * v - s * t

theorem rung_pos {t s v : K} (ht : 0 < t) (hs : 0 < s) (hv : 0 < v) : 0 < rung t s v := by
  unfold rung
  positivity

theorem rung_offset {t s v : K} (ht : 0 < t) (hv : 0 < v) :
    offset t s (rung t s v) = (t / (v + t)) ^ 2 * offset t s v := by
  unfold offset rung
  have : v + t ≠ 0 := by positivity
  field_simp
  ring

theorem iterate_pos {t s v : K} (ht : 0 < t) (hs : 0 < s) (hv : 0 < v) (k : Nat) : 0 < (rung t s)^[k] v := by
  induction k with
  | zero => simpa using hv
  | succ k ih => rw [Function.iterate_succ_apply']; exact rung_pos ht hs ih

theorem iterate_offset_neg {t s v : K} (ht : 0 < t) (hs : 0 < s) (hv : 0 < v) (h : offset t s v < 0) (k : Nat) :
    offset t s ((rung t s)^[k] v) < 0 := by
  induction k with
  | zero => simpa using h
  | succ k ih =>
    have hp := iterate_pos ht hs hv k
    rw [Function.iterate_succ_apply', rung_offset ht hp]
    have : 0 < (t / ((rung t s)^[k] v + t)) ^ 2 := by positivity
    nlinarith

theorem iterate_offset_pos {t s v : K} (ht : 0 < t) (hs : 0 < s) (hv : 0 < v) (h : 0 < offset t s v) (k : Nat) :
    0 < offset t s ((rung t s)^[k] v) := by
  induction k with
  | zero => simpa using h
  | succ k ih =>
    have hp := iterate_pos ht hs hv k
    rw [Function.iterate_succ_apply', rung_offset ht hp]
    positivity

theorem lt_of_offsets {t s x y : K} (ht : 0 < t) (hs : 0 < s) (hy : 0 < y) (h1 : offset t s x < 0) (h2 : 0 < offset t s y) :
    x < y := by
  by_contra h
  push Not at h
  unfold offset at h1 h2
  have hys : s < y := by
    by_contra hc
    push Not at hc
    have : 0 < s * t := by positivity
    nlinarith
  nlinarith [mul_nonneg (sub_nonneg.mpr h) (by linarith : (0 : K) ≤ x + y - s)]

theorem double_rung (t s v : K) (h : v + t / 2 ≠ 0) : 2 * rung (t / 2) (s / 2) v = rung t s (2 * v) := by
  unfold rung
  have h2 : 2 * v + t ≠ 0 := by
    intro h0
    apply h
    linarith
  field_simp

theorem double_iterate {t s v : K} (ht : 0 < t) (hs : 0 < s) (hv : 0 < v) (k : Nat) :
    2 * (rung (t / 2) (s / 2))^[k] v = (rung t s)^[k] (2 * v) := by
  induction k with
  | zero => rfl
  | succ k ih =>
    rw [Function.iterate_succ_apply', Function.iterate_succ_apply', ← ih]
    apply double_rung
    have := iterate_pos (t := t / 2) (s := s / 2) (by positivity) (by positivity) hv k
    positivity

section Floor
variable [FloorRing K]

/-- C148: the ladder to the shield is refused unless the number of turns is a whole number, one or more. -/
theorem cas_refused_iff (n t s : K) : (∃ e, cas n t s = .error e) ↔ ¬ ∃ k : Nat, 1 ≤ k ∧ n = (k : K) := by
  unfold cas
  constructor
  · rintro ⟨e, he⟩ ⟨k, hk, rfl⟩
    rw [if_neg] at he
    · cases he
    · rintro (h | h)
      · have : (1 : K) ≤ (k : K) := by exact_mod_cast hk
        linarith
      · simp at h
  · intro h
    refine ⟨.ladderAs, ?_⟩
    rw [if_pos]
    by_contra hc
    push Not at hc
    apply h
    have hf : (1 : Int) ≤ ⌊n⌋ := by rw [Int.le_floor]; exact_mod_cast hc.1
    refine ⟨⌊n⌋.toNat, by omega, ?_⟩
    rw [hc.2]
    have : ((⌊n⌋.toNat : Int) : K) = (⌊n⌋ : K) := by rw [Int.toNat_of_nonneg (by omega)]
    rw [Int.floor_intCast]
    exact_mod_cast this.symm

/-- C148: the ladder between the ends is refused unless it is two or more. -/
theorem cab_refused_iff (n t s : K) : (∃ e, cab n t s = .error e) ↔ ¬ ∃ k : Nat, 2 ≤ k ∧ n = (k : K) := by
  unfold cab
  constructor
  · rintro ⟨e, he⟩ ⟨k, hk, rfl⟩
    rw [if_neg] at he
    · simp only [] at he
      split at he <;> cases he
    · rintro (h | h)
      · have : (2 : K) ≤ (k : K) := by exact_mod_cast hk
        linarith
      · simp at h
  · intro h
    refine ⟨.ladderAb, ?_⟩
    rw [if_pos]
    by_contra hc
    push Not at hc
    apply h
    have hf : (2 : Int) ≤ ⌊n⌋ := by rw [Int.le_floor]; exact_mod_cast hc.1
    refine ⟨⌊n⌋.toNat, by omega, ?_⟩
    rw [hc.2]
    have : ((⌊n⌋.toNat : Int) : K) = (⌊n⌋ : K) := by rw [Int.toNat_of_nonneg (by omega)]
    rw [Int.floor_intCast]
    exact_mod_cast this.symm

theorem cas_nat {k : Nat} (hk : 1 ≤ k) (t s : K) : cas (k : K) t s = .ok ((rung t s)^[k - 1] s) := by
  unfold cas
  rw [if_neg]
  · simp
  · rintro (h | h)
    · have : (1 : K) ≤ (k : K) := by exact_mod_cast hk
      linarith
    · simp at h

theorem cab_nat {k : Nat} (hk : 2 ≤ k) (t s : K) :
    cab (k : K) t s = .ok (if k % 2 = 0 then (rung (t / 2) (s / 2))^[(k - 2) / 2] (t + s / 2)
      else (rung (t / 2) (s / 2))^[(k - 3) / 2] (t / 2 + s / 2)) := by
  unfold cab
  rw [if_neg]
  · simp only [Int.floor_natCast, Int.toNat_natCast]
    split <;> rfl
  · rintro (h | h)
    · have : (2 : K) ≤ (k : K) := by exact_mod_cast hk
      linarith
    · simp at h

/-- C148: each turn more adds: from `k` to `k + 1` turns, those of `k` are in series with what is between two turns and in parallel with
what the new one has to the shield. -/
theorem cas_step {k : Nat} (hk : 1 ≤ k) {t s v : K} (h : cas (k : K) t s = .ok v) :
    cas ((k + 1 : Nat) : K) t s = .ok (v * t / (v + t) + s) ∧ cas (1 : K) t s = .ok s := by
  rw [cas_nat hk] at h
  injection h with h
  constructor
  · rw [cas_nat (by omega), ← h]
    congr 1
    have : k + 1 - 1 = (k - 1) + 1 := by omega
    rw [this, Function.iterate_succ_apply']
    rfl
  · have := cas_nat (K := K) (k := 1) (le_refl _) t s
    simpa using this

/-- C148: the same for the ladder between the ends, two turns at a time. -/
theorem cab_step {k : Nat} (hk : 2 ≤ k) {t s v : K} (h : cab (k : K) t s = .ok v) :
    cab ((k + 2 : Nat) : K) t s = .ok (v * (t / 2) / (v + t / 2) + s / 2) ∧
    cab (2 : K) t s = .ok (t + s / 2) ∧ cab (3 : K) t s = .ok (t / 2 + s / 2) := by
  rw [cab_nat hk] at h
  injection h with h
  refine ⟨?_, ?_, ?_⟩
  · rw [cab_nat (by omega), ← h]
    congr 1
    by_cases hm : k % 2 = 0
    · rw [if_pos (by omega), if_pos hm]
      have : (k + 2 - 2) / 2 = (k - 2) / 2 + 1 := by omega
      rw [this, Function.iterate_succ_apply']
      rfl
    · rw [if_neg (by omega), if_neg hm]
      have : (k + 2 - 3) / 2 = (k - 3) / 2 + 1 := by omega
      rw [this, Function.iterate_succ_apply']
      rfl
  · have := cab_nat (K := K) (k := 2) (le_refl _) t s
    simpa using this
  · have := cab_nat (K := K) (k := 3) (by omega) t s
    simpa using this

/-- C148: with more turns the capacitance to the shield grows, but it stays between that of one turn and that of one turn and a neighbour
together. -/
theorem cas_between {k : Nat} (hk : 1 ≤ k) {t s : K} (ht : 0 < t) (hs : 0 < s) :
    ∃ v w, cas (k : K) t s = .ok v ∧ cas ((k + 1 : Nat) : K) t s = .ok w ∧ s ≤ v ∧ v < w ∧ w < s + t := by
  refine ⟨_, _, cas_nat hk t s, (cas_step hk (cas_nat hk t s)).1, ?_, ?_, ?_⟩
  all_goals
    have hp := iterate_pos ht hs hs (k - 1)
    have ho := iterate_offset_neg (t := t) (s := s) (v := s) ht hs hs (by unfold offset; nlinarith) (k - 1)
  · rcases Nat.eq_zero_or_pos (k - 1) with h | h
    · rw [h]; simp
    · obtain ⟨m, hm⟩ := Nat.exists_eq_add_of_lt h
      have : k - 1 = m + 1 := by omega
      rw [this, Function.iterate_succ_apply']
      have hq := iterate_pos ht hs hs m
      unfold rung
      have : 0 < (rung t s)^[m] s * t / ((rung t s)^[m] s + t) := by positivity
      unfold rung at this
      linarith
  · generalize (rung t s)^[k - 1] s = v at *
    unfold offset at ho
    rw [← sub_lt_iff_lt_add, lt_div_iff₀ (by positivity)]
    nlinarith
  · generalize (rung t s)^[k - 1] s = v at *
    have : v * t / (v + t) < t := by
      rw [div_lt_iff₀ (by positivity)]
      nlinarith
    linarith

/-- C148: it settles: the more turns, the closer it is to solving `c² = s c + s t`, and it is always below. -/
theorem cas_settles {k : Nat} (hk : 1 ≤ k) {t s : K} (ht : 0 < t) (hs : 0 < s) :
    ∃ v, cas (k : K) t s = .ok v ∧ 0 < s * v + s * t - v ^ 2 ∧
      s * v + s * t - v ^ 2 ≤ s * t * ((t / (s + t)) ^ 2) ^ (k - 1) := by
  refine ⟨_, cas_nat hk t s, ?_, ?_⟩
  · have ho := iterate_offset_neg (t := t) (s := s) (v := s) ht hs hs (by unfold offset; nlinarith) (k - 1)
    unfold offset at ho
    linarith
  · have key : ∀ j : Nat, s ≤ (rung t s)^[j] s ∧ -offset t s ((rung t s)^[j] s) ≤ s * t * ((t / (s + t)) ^ 2) ^ j := by
      intro j
      induction j with
      | zero => exact ⟨le_refl _, by unfold offset; simp; nlinarith⟩
      | succ j ih =>
        have hp := iterate_pos ht hs hs j
        have ho := iterate_offset_neg (t := t) (s := s) (v := s) ht hs hs (by unfold offset; nlinarith) j
        rw [Function.iterate_succ_apply']
        refine ⟨?_, ?_⟩
        · have : 0 < (rung t s)^[j] s * t / ((rung t s)^[j] s + t) := by positivity
          conv_rhs => rw [rung]
          linarith
        · rw [rung_offset ht hp, pow_succ (_ ^ 2) j, ← mul_neg]
          have hq : (t / ((rung t s)^[j] s + t)) ^ 2 ≤ (t / (s + t)) ^ 2 := by
            apply pow_le_pow_left₀ (by positivity)
            apply div_le_div_of_nonneg_left (le_of_lt ht) (by positivity)
            linarith [ih.1]
          calc (t / ((rung t s)^[j] s + t)) ^ 2 * -offset t s ((rung t s)^[j] s)
              ≤ (t / (s + t)) ^ 2 * (s * t * ((t / (s + t)) ^ 2) ^ j) := by
                apply mul_le_mul hq ih.2 (by linarith) (by positivity)
            _ = s * t * (((t / (s + t)) ^ 2) ^ j * (t / (s + t)) ^ 2) := by ring
    have := (key (k - 1)).2
    unfold offset at this
    linarith

/-- C148: what does not change with one more turn is not the square root of both capacitances multiplied, as the comment of 2290-2292 has
it, but more. -/
theorem fixed_point_not_root {t s v : K} (ht : 0 < t) (hs : 0 < s) (hv : 0 < v) :
    (rung t s v = v ↔ v ^ 2 = s * v + s * t) ∧ (rung t s v = v → s * t < v ^ 2) := by
  have e : rung t s v = v ↔ v ^ 2 = s * v + s * t := by
    unfold rung
    have : v + t ≠ 0 := by positivity
    constructor
    · intro h
      field_simp at h
      linarith
    · intro h
      field_simp
      linarith
  refine ⟨e, ?_⟩
  intro h
  rw [e] at h
  have : 0 < s * v := by positivity
  linarith

/-- Twice the capacitance between the ends is more than that to the shield, whatever the numbers of turns. -/
theorem cas_lt_two_cab {j k : Nat} (hj : 1 ≤ j) (hk : 2 ≤ k) {t s : K} (ht : 0 < t) (hs : 0 < s) :
    ∃ a b, cas (j : K) t s = .ok a ∧ cab (k : K) t s = .ok b ∧ 0 < a ∧ 0 < b ∧ a < 2 * b := by
  refine ⟨_, _, cas_nat hj t s, cab_nat hk t s, iterate_pos ht hs hs _, ?_, ?_⟩
  · split
    · exact iterate_pos (by positivity) (by positivity) (by positivity) _
    · exact iterate_pos (by positivity) (by positivity) (by positivity) _
  · have ho := iterate_offset_neg (t := t) (s := s) (v := s) ht hs hs (by unfold offset; nlinarith) (j - 1)
    split
    · rw [double_iterate ht hs (by positivity)]
      apply lt_of_offsets ht hs (iterate_pos ht hs (by positivity) _) ho
      apply iterate_offset_pos ht hs (by positivity)
      unfold offset
      have : 0 < s * t := by positivity
      nlinarith
    · rw [double_iterate ht hs (by positivity)]
      apply lt_of_offsets ht hs (iterate_pos ht hs (by positivity) _) ho
      apply iterate_offset_pos ht hs (by positivity)
      unfold offset
      nlinarith

/-- C148: for every whole number of turns the capacitance is a positive number: nothing is divided by zero. Without layers or with one of
them, and unless the coil is a toroid whose core is missing. -/
theorem one_layer_positive {k : Nat} (hk : 1 ≤ k) {t s : K} (ht : 0 < t) (hs : 0 < s) {layers : Option Nat}
    (hl : ∀ l, layers = some l → 1 ≤ l) (toroidal hasCore : Bool) (hc : toroidal = true → 1 < k → hasCore = true) :
    ∃ x, oneLayer toroidal hasCore (k : K) t s layers = .ok x ∧ 0 < x := by
  unfold oneLayer
  by_cases htor : toroidal = true ∧ (k : K) > 1
  · rw [if_pos htor]
    have hk1 : 1 < k := by exact_mod_cast htor.2
    rw [if_pos (hc htor.1 hk1)]
    refine ⟨_, rfl, ?_⟩
    have : (0 : K) < (k : K) - 1 := by linarith [htor.2]
    have : (0 : K) < (k : K) := by linarith
    positivity
  · rw [if_neg htor]
    have hlay : ∀ x : K, 0 < x → ∃ y : K, (match layers with
        | none => (.ok x : Except Err K)
        | some l => .ok (x * (l : K))) = .ok y ∧ 0 < y := by
      intro x hx
      cases hly : layers with
      | none => exact ⟨x, rfl, hx⟩
      | some l =>
        refine ⟨_, rfl, ?_⟩
        have : (1 : K) ≤ (l : K) := by exact_mod_cast hl l hly
        nlinarith
    rcases Nat.lt_or_ge 1 k with h1 | h1
    · obtain ⟨a, b, ea, eb, ha, hb, hab⟩ := cas_lt_two_cab (j := k) (k := k) hk h1 ht hs
      rw [ea]
      have hk1 : (k : K) > 1 := by exact_mod_cast h1
      simp only [if_pos hk1, eb]
      have hden : 0 < 4 * b - a := by linarith
      have p2 : 0 < 2 * b * a / (4 * b - a) * 2 := by positivity
      have p1 : 0 < b - b * a / (4 * b - a) := by
        have : b * a / (4 * b - a) < b := by
          rw [div_lt_iff₀ hden]
          nlinarith
        linarith
      by_cases hbig : b - b * a / (4 * b - a) > 1 / 10 ^ 13
      · rw [if_pos hbig]
        exact hlay _ (by positivity)
      · rw [if_neg hbig]
        exact hlay _ p2
    · have hk1 : k = 1 := by omega
      subst hk1
      have hc1 : cas ((1 : Nat) : K) t s = .ok s := by
        have := cas_nat (K := K) (k := 1) (le_refl _) t s
        simpa using this
      rw [hc1]
      simp only [Nat.cast_one, gt_iff_lt, lt_irrefl, if_false]
      exact hlay s hs

/-- C148: and for numbers of turns which are not whole, or less than one, it is refused; unless the coil is a toroid (whose formula takes
any number above one). -/
theorem one_layer_refused {n t s : K} (h : ¬ ∃ k : Nat, 1 ≤ k ∧ n = (k : K)) (layers : Option Nat) (toroidal hasCore : Bool)
    (ht : toroidal = true → n ≤ 1) : ∃ e, oneLayer toroidal hasCore n t s layers = .error e := by
  obtain ⟨e, he⟩ := (cas_refused_iff n t s).mpr h
  refine ⟨e, ?_⟩
  unfold oneLayer
  rw [if_neg, he]
  rintro ⟨h1, h2⟩
  have := ht h1
  linarith

/-- C148: a toroid of more than one turn needs its core. -/
theorem toroid_needs_core {n t s : K} (hn : 1 < n) (layers : Option Nat) :
    oneLayer true false n t s layers = .error .noCore := by
  unfold oneLayer
  rw [if_pos ⟨rfl, hn⟩]
  rfl

/-- C148: the term of the turns of a toroid to its core. What the turns store at voltages which change evenly, against a core at the
middle voltage, is `N (N + 1) / (12 (N - 1))` times that of a turn; the code has `N / 12`, less by `(N - 1) / (N + 1)`: a third for two
turns. (The comment of 2298 says it is approximate.) -/
theorem toroid_core_term {N : Nat} (hN : 2 ≤ N) (s : K) :
    s * ∑ k ∈ Finset.range N, ((k : K) / ((N : K) - 1) - 1 / 2) ^ 2 = (N : K) * s / 12 * (((N : K) + 1) / ((N : K) - 1)) := by
  have hd : (N : K) - 1 ≠ 0 := by
    have : (1 : K) < (N : K) := by exact_mod_cast hN
    intro h
    linarith
  have sum1 : ∀ m : Nat, ∑ k ∈ Finset.range m, (k : K) = (m : K) * ((m : K) - 1) / 2 := by
    intro m
    induction m with
    | zero => simp
    | succ m ih => rw [Finset.sum_range_succ, ih]; push_cast; ring
  have sum2 : ∀ m : Nat, ∑ k ∈ Finset.range m, (k : K) ^ 2 = (m : K) * ((m : K) - 1) * (2 * (m : K) - 1) / 6 := by
    intro m
    induction m with
    | zero => simp
    | succ m ih => rw [Finset.sum_range_succ, ih]; push_cast; ring
  have e : ∀ k ∈ Finset.range N, ((k : K) / ((N : K) - 1) - 1 / 2) ^ 2 =
      1 / ((N : K) - 1) ^ 2 * (k : K) ^ 2 - 1 / ((N : K) - 1) * (k : K) + 1 / 4 := by
    intro k _
    field_simp
    ring
  rw [Finset.sum_congr rfl e, Finset.sum_add_distrib, Finset.sum_sub_distrib, ← Finset.mul_sum, ← Finset.mul_sum, sum1, sum2,
    Finset.sum_const, Finset.card_range, nsmul_eq_mul]
  field_simp
  ring

/-- C148 does not include that longer turns give more capacitance: when the inner term goes above 1e-13 it is put in series, and the
result falls to a third. Two turns whose two capacitances are 1e-13, and the same turns a tenth longer. -/
theorem longer_turns_less_capacitance :
    ∃ c r : ℚ, 0 < c ∧ 1 < r ∧ oneLayer false true 2 c c none = .ok (2 * c) ∧
      oneLayer false true 2 (r * c) (r * c) none = .ok (2 / 3 * (r * c)) ∧ 2 / 3 * (r * c) < 2 * c := by
  have ex : ∀ (x : ℚ), 0 < x → oneLayer false true 2 x x none = .ok (if x > 1 / 10 ^ 13 then 2 / 3 * x else 2 * x) := by
    intro x hx
    have h1 : cas (2 : ℚ) x x = .ok (3 / 2 * x) := by
      have := cas_nat (K := ℚ) (k := 2) (by omega) x x
      simp only [Nat.cast_ofNat] at this
      rw [this]
      congr 1
      simp [rung]
      field_simp
      ring
    have h2 : cab (2 : ℚ) x x = .ok (3 / 2 * x) := by
      have := cab_nat (K := ℚ) (k := 2) (by omega) x x
      simp only [Nat.cast_ofNat] at this
      rw [this]
      congr 1
      simp
      ring
    have c1 : 3 / 2 * x - 3 / 2 * x * (3 / 2 * x) / (4 * (3 / 2 * x) - 3 / 2 * x) = x := by
      have h0 : 4 * (3 / 2 * x) - 3 / 2 * x = 9 / 2 * x := by ring
      rw [h0]
      field_simp
      ring
    have c2 : 2 * (3 / 2 * x) * (3 / 2 * x) / (4 * (3 / 2 * x) - 3 / 2 * x) * 2 = 2 * x := by
      have h0 : 4 * (3 / 2 * x) - 3 / 2 * x = 9 / 2 * x := by ring
      rw [h0]
      field_simp
      ring
    unfold oneLayer
    rw [if_neg (by simp), h1]
    simp only [h2, c1, c2]
    rw [if_pos (by norm_num : (2 : ℚ) > 1)]
    by_cases hb : x > 1 / 10 ^ 13
    · simp only [if_pos hb]
      congr 1
      field_simp
      norm_num
    · simp only [if_neg hb]
  refine ⟨1 / 10 ^ 13, 11 / 10, by norm_num, by norm_num, ?_, ?_, by norm_num⟩
  · rw [ex _ (by norm_num), if_neg (by norm_num)]
  · rw [ex _ (by norm_num), if_pos (by norm_num)]

end Floor

example : ∃ x, oneLayer false true (12 : ℚ) 1 2 (some 1) = .ok x ∧ 0 < x := by
  have := one_layer_positive (K := ℚ) (k := 12) (by omega) (t := 1) (s := 2) (by norm_num) (by norm_num)
    (layers := some 1) (by intro l h; injection h with h; omega) false true (by simp)
  simpa using this

end Verif.StrayCapacitance
