import Mathlib.Algebra.Order.Floor.Ring
import Mathlib.Algebra.Order.Field.Basic
import Mathlib.Algebra.Order.Group.Abs
import Mathlib.Data.Rat.Floor
import Mathlib.Tactic.Linarith
import Mathlib.Tactic.FieldSimp
import Mathlib.Tactic.NormNum
import Mathlib.Tactic.Positivity

/-! # Rounding helpers: `std::round` and `roundFloat`, over an ordered field with floor -/

namespace Verif.Round

variable {K : Type} [Field K] [LinearOrder K] [IsStrictOrderedRing K] [FloorRing K]

/-- Models `std::round`: nearest integer, halves away from zero. -/
def round (x : K) : ℤ := if 0 ≤ x then ⌊x + 1/2⌋ else -⌊-x + 1/2⌋

/-- Models `roundFloat` (src/support/Utils.cpp:1576-1578): `round(value * 10^d) / 10^d`. -/
def roundFloat (x : K) (d : Nat) : K := (round (x * 10 ^ d) : K) / 10 ^ d

/-- Models `ceilFloat` (src/support/Utils.cpp:2120-2122). -/
def ceilFloat (x : K) (d : Nat) : K := (⌈x * 10 ^ d⌉ : K) / 10 ^ d

/-- Models `floorFloat` (src/support/Utils.cpp:2125-2127). -/
def floorFloat (x : K) (d : Nat) : K := (⌊x * 10 ^ d⌋ : K) / 10 ^ d

theorem round_near (x : K) : |(round x : K) - x| ≤ 1/2 := by
  unfold round
  split
  · rw [abs_le]
    have h1 := Int.floor_le (x + 1/2)
    have h2 := Int.lt_floor_add_one (x + 1/2)
    constructor <;> linarith
  · rw [abs_le]
    have h1 := Int.floor_le (-x + 1/2)
    have h2 := Int.lt_floor_add_one (-x + 1/2)
    push_cast
    constructor <;> linarith

theorem round_mono {x y : K} (h : x ≤ y) : round x ≤ round y := by
  unfold round
  by_cases hx : 0 ≤ x
  · rw [if_pos hx, if_pos (le_trans hx h)]
    exact Int.floor_le_floor (by linarith)
  · rw [if_neg hx]
    have h1 : 0 ≤ ⌊-x + 1/2⌋ := Int.floor_nonneg.mpr (by linarith [not_le.mp hx])
    split
    · rename_i hy
      have : 0 ≤ ⌊y + 1/2⌋ := Int.floor_nonneg.mpr (by linarith)
      omega
    · have : ⌊-y + 1/2⌋ ≤ ⌊-x + 1/2⌋ := Int.floor_le_floor (by linarith)
      omega

theorem round_intCast (z : ℤ) : round (z : K) = z := by
  have key : ∀ w : ℤ, ⌊(w : K) + 1/2⌋ = w := by
    intro w
    rw [Int.floor_eq_iff]
    constructor <;> linarith
  unfold round
  split
  · exact key z
  · have := key (-z)
    push_cast at this
    rw [this]; ring

theorem roundFloat_near (x : K) (d : Nat) : |roundFloat x d - x| ≤ 1 / (2 * 10 ^ d) := by
  have hp : (0 : K) < 10 ^ d := by positivity
  have h := round_near (x * 10 ^ d)
  have e : roundFloat x d - x = ((round (x * 10 ^ d) : K) - x * 10 ^ d) / 10 ^ d := by
    unfold roundFloat; field_simp
  rw [e, abs_div, abs_of_pos hp, div_le_div_iff₀ hp (by positivity)]
  nlinarith

theorem roundFloat_mono {x y : K} (h : x ≤ y) (d : Nat) : roundFloat x d ≤ roundFloat y d := by
  have hp : (0 : K) < 10 ^ d := by positivity
  unfold roundFloat
  rw [div_le_div_iff_of_pos_right hp]
  exact_mod_cast round_mono (mul_le_mul_of_nonneg_right h hp.le)

theorem roundFloat_idem (x : K) (d : Nat) : roundFloat (roundFloat x d) d = roundFloat x d := by
  have hp : (0 : K) < 10 ^ d := by positivity
  unfold roundFloat
  rw [div_mul_cancel₀ _ hp.ne', round_intCast]

theorem roundFloat_zero (d : Nat) : roundFloat (0 : K) d = 0 := by
  unfold roundFloat
  have : round (0 * 10 ^ d : K) = 0 := by
    have := round_intCast (K := K) 0
    simpa using this
  rw [this]; simp

theorem roundFloat_nonneg {x : K} (h : 0 ≤ x) (d : Nat) : 0 ≤ roundFloat x d := by
  have := roundFloat_mono h d
  rwa [roundFloat_zero] at this

theorem ceilFloat_ge (x : K) (d : Nat) : x ≤ ceilFloat x d ∧ ceilFloat x d < x + 1 / 10 ^ d := by
  have hp : (0 : K) < 10 ^ d := by positivity
  unfold ceilFloat
  have h1 := Int.le_ceil (x * 10 ^ d)
  have h2 := Int.ceil_lt_add_one (x * 10 ^ d)
  constructor
  · rw [le_div_iff₀ hp]; exact h1
  · rw [div_lt_iff₀ hp, add_mul, one_div, inv_mul_cancel₀ hp.ne']; exact h2

theorem floorFloat_le (x : K) (d : Nat) : floorFloat x d ≤ x ∧ x - 1 / 10 ^ d < floorFloat x d := by
  have hp : (0 : K) < 10 ^ d := by positivity
  unfold floorFloat
  have h1 := Int.floor_le (x * 10 ^ d)
  have h2 := Int.lt_floor_add_one (x * 10 ^ d)
  constructor
  · rw [div_le_iff₀ hp]; exact h1
  · rw [lt_div_iff₀ hp, sub_mul, one_div, inv_mul_cancel₀ hp.ne']; linarith

end Verif.Round
