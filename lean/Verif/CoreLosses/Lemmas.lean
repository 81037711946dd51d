import Mathlib.Tactic.Linarith
import Mathlib.Tactic.Positivity
import Mathlib.Tactic.FieldSimp
import Mathlib.Tactic.Ring
import Mathlib.Tactic.LinearCombination
import Mathlib.Tactic.NormNum
import Verif.CoreLosses.Formula

/-!
# Core losses: lemmas
-/

namespace Verif.CoreLosses

theorem cpow_pos {x : ℝ} (h : 0 < x) (y : ℝ) : cpow x y = .ok (x ^ y) := by
  unfold cpow; rw [if_pos (Or.inl h)]

theorem cpow_nonneg {x y : ℝ} (h : 0 ≤ x) (hy : 0 ≤ y) : cpow x y = .ok (x ^ y) := by
  unfold cpow
  rw [if_pos]
  rcases h.lt_or_eq with h | h
  · exact Or.inl h
  · exact Or.inr (Or.inl ⟨h.symm, hy⟩)

theorem cpow_ok {x y z : ℝ} (h : cpow x y = .ok z) : z = x ^ y := by
  unfold cpow at h
  split at h
  · simpa using h.symm
  · simp at h

theorem cpow_neg {x y : ℝ} (h : x < 0) (hy : ¬∃ n : ℤ, y = n) : cpow x y = .nan := by
  unfold cpow
  rw [if_neg]
  rintro (h' | ⟨h', _⟩ | ⟨_, h'⟩)
  · linarith
  · linarith
  · exact hy h'

theorem amplitudes_eq {head b beta : ℝ} (hb : 0 ≤ b) (h : 0 ≤ beta) : amplitudes head b b beta = .ok (head * b ^ beta) := by
  unfold amplitudes
  by_cases h2 : beta > 2
  · rw [if_pos h2, cpow_nonneg hb (by linarith)]
    simp only [Res.bind]
    rcases hb.lt_or_eq with hb | hb
    · have : b ^ beta = b ^ (beta - 2) * b ^ 2 := by
        rw [← Real.rpow_natCast b 2, ← Real.rpow_add hb]; norm_num
      rw [this]; congr 1; ring
    · rw [← hb, Real.zero_rpow (by linarith : beta ≠ 0)]; simp
  · rw [if_neg h2, cpow_nonneg hb h]; rfl

theorem applyTemperature_mul (d : Datum ℝ) (t p c : ℝ) : applyTemperature (p * c) d t = applyTemperature p d t * c := by
  unfold applyTemperature
  cases scale d t with
  | none => rfl
  | some s => simp only []; split_ifs <;> ring

theorem applyTemperature_one (d : Datum ℝ) (t p : ℝ) : applyTemperature p d t = p * applyTemperature 1 d t := by
  have := applyTemperature_mul d t 1 p
  rw [one_mul] at this
  rw [this]; ring

theorem applyTemperature_one_pos (d : Datum ℝ) (t : ℝ) : 0 < applyTemperature 1 d t := by
  unfold applyTemperature
  cases scale d t with
  | none => norm_num
  | some s => simp only []; split_ifs with h <;> linarith

theorem applyTemperature_nonneg {p : ℝ} (hp : 0 ≤ p) (d : Datum ℝ) (t : ℝ) : 0 ≤ applyTemperature p d t := by
  rw [applyTemperature_one]
  exact mul_nonneg hp (applyTemperature_one_pos d t).le

theorem amplitudes_nonneg {head main ac beta p : ℝ} (hh : 0 ≤ head) (hm : 0 ≤ main) (ha : 0 ≤ ac)
    (h : amplitudes head main ac beta = .ok p) : 0 ≤ p := by
  unfold amplitudes at h
  split_ifs at h with hb
  · cases hc : cpow main (beta - 2) with
    | ok z =>
      rw [hc] at h; simp [Res.bind] at h; subst h
      rw [cpow_ok hc]
      have := Real.rpow_nonneg hm (beta - 2)
      positivity
    | nan => rw [hc] at h; simp [Res.bind] at h
    | throws e => rw [hc] at h; simp [Res.bind] at h
    | ub => rw [hc] at h; simp [Res.bind] at h
  · cases hc : cpow ac beta with
    | ok z =>
      rw [hc] at h; simp [Res.bind] at h; subst h
      rw [cpow_ok hc]
      exact mul_nonneg hh (Real.rpow_nonneg ha _)
    | nan => rw [hc] at h; simp [Res.bind] at h
    | throws e => rw [hc] at h; simp [Res.bind] at h
    | ub => rw [hc] at h; simp [Res.bind] at h

theorem Res.bind_eq_ok {α β : Type} {r : Res α} {g : α → Res β} {b : β} (h : r.bind g = .ok b) :
    ∃ a, r = .ok a ∧ g a = .ok b := by
  cases r with
  | ok a => exact ⟨a, rfl, h⟩
  | nan => simp [Res.bind] at h
  | throws e => simp [Res.bind] at h
  | ub => simp [Res.bind] at h

end Verif.CoreLosses
