import Verif.Fft.Model
import Mathlib.Tactic.IntervalCases
import Mathlib.Data.Nat.Bitwise
import Mathlib.Tactic.Linarith
import Mathlib.Tactic.Ring

/-! # Reversal of bits -/

namespace Verif.Fft

/-- The reversal of the lowest `m` bits, by recursion on them. -/
def rev : Nat → Nat → Nat
  | 0, _ => 0
  | m + 1, a => 2 ^ m * (a % 2) + rev m (a / 2)

theorem rev_lt (m a : Nat) : rev m a < 2 ^ m := by
  induction m generalizing a with
  | zero => simp [rev]
  | succ m ih =>
    have h1 := ih (a / 2)
    have h2 : a % 2 < 2 := Nat.mod_lt _ (by norm_num)
    have : a % 2 = 0 ∨ a % 2 = 1 := by omega
    rw [rev, pow_succ]
    rcases this with h | h <;> rw [h] <;> omega

theorem testBit_rev (m a i : Nat) : (rev m a).testBit i = (decide (i < m) && a.testBit (m - 1 - i)) := by
  induction m generalizing a i with
  | zero => simp [rev]
  | succ m ih =>
    rw [rev, Nat.two_pow_add_eq_or_of_lt (rev_lt m _), Nat.testBit_or, ih]
    rw [show 2 ^ m * (a % 2) = (a % 2) <<< m from by rw [Nat.shiftLeft_eq, mul_comm], Nat.testBit_shiftLeft]
    by_cases him : i < m
    · have e : m + 1 - 1 - i = (m - 1 - i) + 1 := by omega
      have : ¬ i ≥ m := by omega
      have h2 : i < m + 1 := by omega
      simp [this, him, h2, e, Nat.testBit_succ]
      rw [show m - i = (m - 1 - i) + 1 by omega, Nat.testBit_succ]
    · by_cases hm : i = m
      · subst hm
        simp [Nat.testBit_zero]
      · have h1 : i ≥ m := by omega
        have h2 : ¬ i < m + 1 := by omega
        have h3 : i - m ≠ 0 := by omega
        simp only [h1, him, h2, decide_true, decide_false, Bool.true_and, Bool.false_and, Bool.or_false]
        obtain ⟨j, hj⟩ := Nat.exists_eq_succ_of_ne_zero h3
        rw [hj, Nat.testBit_succ]
        have : a % 2 / 2 = 0 := by omega
        rw [this]; simp

theorem rev_rev (m a : Nat) (h : a < 2 ^ m) : rev m (rev m a) = a := by
  apply Nat.eq_of_testBit_eq
  intro i
  rw [testBit_rev, testBit_rev]
  by_cases hi : i < m
  · have h1 : m - 1 - i < m := by omega
    have h2 : m - 1 - (m - 1 - i) = i := by omega
    simp [hi, h1, h2]
  · have : a.testBit i = false := Nat.testBit_lt_two_pow (lt_of_lt_of_le h (Nat.pow_le_pow_right (by norm_num) (by omega)))
    simp [hi, this]

/-- Reversing one bit more, from the highest bit on. -/
theorem rev_succ_low (m r : Nat) (h : r < 2 ^ m) : rev (m + 1) r = 2 * rev m r := by
  apply Nat.eq_of_testBit_eq
  intro i
  rw [testBit_rev]
  cases i with
  | zero =>
    simp only [Nat.add_sub_cancel, Nat.sub_zero]
    rw [Nat.testBit_lt_two_pow h]
    simp [Nat.testBit_zero]
  | succ i =>
    rw [Nat.testBit_succ, Nat.mul_div_cancel_left _ (by norm_num), testBit_rev]
    have e : m + 1 - 1 - (i + 1) = m - 1 - i := by omega
    rw [e]
    by_cases hi : i < m <;> simp [hi]

theorem rev_succ_high (m r : Nat) (h : r < 2 ^ m) : rev (m + 1) (2 ^ m + r) = 2 * rev m r + 1 := by
  apply Nat.eq_of_testBit_eq
  intro i
  rw [testBit_rev]
  cases i with
  | zero =>
    simp only [Nat.add_sub_cancel, Nat.sub_zero]
    rw [Nat.testBit_two_pow_add_eq, Nat.testBit_lt_two_pow h]
    simp [Nat.testBit_zero]
  | succ i =>
    rw [Nat.testBit_succ, show (2 * rev m r + 1) / 2 = rev m r by omega, testBit_rev]
    have e : m + 1 - 1 - (i + 1) = m - 1 - i := by omega
    rw [e]
    by_cases hi : i < m
    · rw [Nat.testBit_two_pow_add_gt (by omega)]
      simp [hi]
    · simp [hi]

/-- The exchanges of the code reverse all the bits. -/
theorem reversed_bit (m : Nat) (hm : 1 ≤ m) (hm' : m ≤ 32) (b : BitVec 32) (i : Nat) :
    (reversed m b).getLsbD i = (decide (i < m) && b.getLsbD (m - 1 - i)) := by
  have swap : ∀ (b : BitVec 32) (j : Nat), j < 32 →
      (let b := ((b &&& 0xaaaaaaaa#32) >>> 1) ||| ((b &&& 0x55555555#32) <<< 1)
       let b := ((b &&& 0xcccccccc#32) >>> 2) ||| ((b &&& 0x33333333#32) <<< 2)
       let b := ((b &&& 0xf0f0f0f0#32) >>> 4) ||| ((b &&& 0x0f0f0f0f#32) <<< 4)
       let b := ((b &&& 0xff00ff00#32) >>> 8) ||| ((b &&& 0x00ff00ff#32) <<< 8)
       ((b >>> 16) ||| (b <<< 16))).getLsbD j = b.getLsbD (31 - j) := by
    intro b j hj
    interval_cases j <;> simp
  by_cases hi : i < m
  · simp only [reversed, BitVec.getLsbD_ushiftRight]
    have hj : 32 - m + i < 32 := by omega
    have e := swap b (32 - m + i) hj
    simp only at e
    rw [e]
    simp only [hi, decide_true, Bool.true_and]
    congr 1
    omega
  · simp only [reversed, BitVec.getLsbD_ushiftRight]
    rw [BitVec.getLsbD_of_ge _ _ (by omega)]
    simp [hi]

/-- The partner of an index is its reversal. -/
theorem partner_eq (m a : Nat) (hm : 1 ≤ m) (hm' : m ≤ 31) (ha : a < 2 ^ m) : partner m a = rev m a := by
  apply Nat.eq_of_testBit_eq
  intro i
  rw [partner, testBit_rev, ← BitVec.getLsbD, reversed_bit m hm (by omega)]
  congr 1
  rw [BitVec.getLsbD_ofNat]
  have : m - 1 - i < 32 := by omega
  simp [this]

end Verif.Fft
