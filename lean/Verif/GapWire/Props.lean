import Mathlib.Data.Rat.Defs
import Mathlib.Algebra.Order.Ring.Rat
import Mathlib.Tactic.Ring
import Mathlib.Tactic.Linarith
import Mathlib.Tactic.NormNum
import Mathlib.Tactic.FieldSimp
import Mathlib.Tactic.Positivity
import Verif.GapWire.Model

/-! # Properties of the wire that stands for a gap -/

set_option linter.unusedSimpArgs false
set_option linter.unusedVariables false

namespace Verif.GapWire

open Verif.Filters

variable {K : Type} [Field K] [LinearOrder K] [IsStrictOrderedRing K]

theorem ratio_eq (l : K) {w : K} : ratio l w = l / w := by
  unfold ratio
  rw [mul_div_cancel₀ w two_ne_zero]

theorem offset_anti {a b : K} (h0 : 0 ≤ a) (h : a ≤ b) : offset b ≤ offset a := by
  unfold offset
  have h2 : a ^ 2 ≤ b ^ 2 := pow_le_pow_left₀ h0 h 2
  have h3 : a ^ 3 ≤ b ^ 3 := pow_le_pow_left₀ h0 h 3
  linarith

theorem denominator_anti {a b : K} (h : a ≤ b) : denominator b ≤ denominator a := by
  unfold denominator
  have e : (25 / 100 - 1569 / 1000 * a + 434 / 100 * a ^ 2 - 7042 / 1000 * a ^ 3) -
      (25 / 100 - 1569 / 1000 * b + 434 / 100 * b ^ 2 - 7042 / 1000 * b ^ 3) =
      (b - a) * (1569 / 1000 - 434 / 100 * (a + b) + 7042 / 1000 * (a ^ 2 + a * b + b ^ 2)) := by ring
  have hq : 0 ≤ 1569 / 1000 - 434 / 100 * (a + b) + 7042 / 1000 * (a ^ 2 + a * b + b ^ 2) := by
    have := sq_nonneg (a - b)
    have := sq_nonneg (a + b - 4 / 10)
    nlinarith
  have := mul_nonneg (sub_nonneg.mpr h) hq
  linarith

theorem offset_le_one {a : K} (h : 0 ≤ a) : offset a ≤ 1 := by
  have := offset_anti le_rfl h
  simpa [offset] using this

theorem denominator_le {a : K} (h : 0 ≤ a) : denominator a ≤ 1 / 4 := by
  have := denominator_anti h
  have e : denominator (0 : K) = 1 / 4 := by unfold denominator; norm_num
  rwa [e] at this

/-- **C446.** A gap has a wire exactly if it is within the range of validity. -/
theorem valid_iff {g : Gap K} (hl : 0 ≤ g.length) (hw : ∀ w, g.width = some w → 0 < w) (field : K) :
    valid g = true ↔ ∃ r, wire g field = .value r := by
  unfold valid wire
  cases hw' : g.width with
  | none => simp
  | some w =>
    cases g.place with
    | none => simp
    | some p =>
      have hw0 := hw w hw'
      have hx : 0 ≤ ratio g.length w := by rw [ratio_eq]; positivity
      have he : ¬ w / 2 < offset (ratio g.length w) * (w / 2) := by
        have := mul_le_mul_of_nonneg_right (offset_le_one hx) (half_pos hw0).le
        linarith
      simp only [Bool.and_eq_true, decide_eq_true_eq, if_neg he]
      by_cases h1 : offset (ratio g.length w) < 0
      · simp [h1]
      · by_cases h2 : denominator (ratio g.length w) ≤ 0
        · simp [h1, h2]
        · simp only [if_neg h1, if_neg h2]
          refine ⟨fun _ => ?_, fun _ => ⟨not_lt.mp h1, not_le.mp h2⟩⟩
          split_ifs <;> exact ⟨_, rfl⟩

/-- **C446.** Of two gaps of the same section and place the shorter one is within it if the longer one is. -/
theorem valid_shorter {g : Gap K} {l : K} (h0 : 0 ≤ l) (hl : l ≤ g.length) (hw : ∀ w, g.width = some w → 0 < w) (h : valid g = true) :
    valid { g with length := l } = true := by
  unfold valid at h ⊢
  cases hw' : g.width with
  | none => simp [hw'] at h
  | some w =>
    cases hp : g.place with
    | none => simp [hw', hp] at h
    | some p =>
      have hw0 := hw w hw'
      simp only [hw', hp, Bool.and_eq_true, decide_eq_true_eq] at h ⊢
      have hr : ratio l w ≤ ratio g.length w := by
        rw [ratio_eq, ratio_eq]
        exact div_le_div_of_nonneg_right hl hw0.le
      have hr0 : 0 ≤ ratio l w := by rw [ratio_eq]; positivity
      exact ⟨h.1.trans (offset_anti hr0 hr), h.2.trans_le (denominator_anti hr)⟩

/-- **C446.** Gaps longer than three tenths of their column are never within it, and those up to a quarter always. -/
theorem valid_bounds {g : Gap K} {w : K} {p : K × K} (hw : g.width = some w) (hp : g.place = some p) (h0 : 0 < w) (hl : 0 ≤ g.length) :
    (g.length ≤ w / 4 → valid g = true) ∧ (3 / 10 * w ≤ g.length → valid g = false) := by
  unfold valid
  simp only [hw, hp]
  have hx : 0 ≤ ratio g.length w := by rw [ratio_eq]; positivity
  constructor
  · intro h
    have hr : ratio g.length w ≤ 1 / 4 := by rw [ratio_eq, div_le_iff₀ h0]; linarith
    have a := offset_anti hx hr
    have b := denominator_anti hr
    have ea : (0 : K) ≤ offset (1 / 4) := by unfold offset; norm_num
    have eb : (0 : K) < denominator (1 / 4) := by unfold denominator; norm_num
    simp only [Bool.and_eq_true, decide_eq_true_eq]
    exact ⟨ea.trans a, eb.trans_le b⟩
  · intro h
    have hr : 3 / 10 ≤ ratio g.length w := by rw [ratio_eq, le_div_iff₀ h0]; exact h
    have b := denominator_anti hr
    have eb : denominator (3 / 10 : K) < 0 := by unfold denominator; norm_num
    have : ¬ 0 < denominator (ratio g.length w) := not_lt.mpr (b.trans eb.le)
    simp [this]

/-- **C447.** The wire is at the height of its gap, no farther from its middle than half its section, towards the axis for lateral gaps, and carries
at least four times the magnetomotive force of the gap. -/
theorem wire_spec {g : Gap K} {w : K} {p : K × K} (hw : g.width = some w) (hp : g.place = some p) (h0 : 0 < w) (hl : 0 ≤ g.length)
    {field : K} (hf : 0 ≤ field) {q : K × K} {i : K} (h : wire g field = .value (q, i)) :
    q.2 = p.2 ∧ |q.1 - p.1| ≤ w / 2 ∧ (0 < p.1 → q.1 ≤ p.1) ∧ (p.1 ≤ 0 → p.1 ≤ q.1) ∧ 4 * (field * g.length) ≤ i ∧
      i * denominator (ratio g.length w) = field * g.length := by
  unfold wire at h
  simp only [hw, hp] at h
  have hx : 0 ≤ ratio g.length w := by rw [ratio_eq]; positivity
  by_cases h1 : offset (ratio g.length w) < 0
  · simp [h1] at h
  · by_cases h2 : denominator (ratio g.length w) ≤ 0
    · simp [h1, h2] at h
    · have hd : 0 < denominator (ratio g.length w) := not_le.mp h2
      have he : ¬ w / 2 < offset (ratio g.length w) * (w / 2) := by
        have := mul_le_mul_of_nonneg_right (offset_le_one hx) (half_pos h0).le
        linarith
      have he0 : 0 ≤ offset (ratio g.length w) * (w / 2) := mul_nonneg (not_lt.mp h1) (half_pos h0).le
      have hi : 4 * (field * g.length) ≤ field * g.length / denominator (ratio g.length w) := by
        rw [le_div_iff₀ hd]
        have := mul_le_mul_of_nonneg_left (denominator_le hx) (mul_nonneg hf hl)
        linarith
      have hc : field * g.length / denominator (ratio g.length w) * denominator (ratio g.length w) = field * g.length :=
        div_mul_cancel₀ _ hd.ne'
      simp only [if_neg h1, if_neg h2, if_neg he] at h
      split_ifs at h with a b
      all_goals
        simp only [Outcome.value.injEq, Prod.mk.injEq] at h
        obtain ⟨rfl, rfl⟩ := h
        refine ⟨rfl, ?_, ?_, ?_, hi, hc⟩
      · rw [abs_le]; constructor <;> simp only <;> linarith [not_lt.mp he]
      · intro _; simp only; linarith
      · intro hh; exact absurd a (not_lt.mpr hh)
      · rw [abs_le]; constructor <;> simp only <;> linarith [not_lt.mp he]
      · intro hh; exact absurd hh a
      · intro _; simp only; linarith
      · have : p.1 = 0 := le_antisymm (not_lt.mp a) (not_lt.mp b)
        rw [abs_le]; constructor <;> simp only [this] <;> linarith [not_lt.mp he]
      · intro hh; exact absurd hh a
      · intro hh; simp only; linarith

/-- A central gap of a tenth of its column. -/
example : wire (K := ℚ) ⟨1, some 10, some (0, 2)⟩ 1 = .value ((4287 / 1000, 2), 500000 / 64729) := by
  unfold wire; norm_num [ratio, offset, denominator]
example : valid (K := ℚ) ⟨1, some 10, some (0, 2)⟩ = true := by decide +kernel
example : valid (K := ℚ) ⟨3, some 10, some (0, 2)⟩ = false := by decide +kernel

end Verif.GapWire
