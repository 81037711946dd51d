import Verif.Reluctance.Model
import Mathlib.Data.List.Forall2
import Mathlib.Tactic.FieldSimp
import Mathlib.Tactic.Linarith
import Mathlib.Tactic.Positivity
import Mathlib.Tactic.Ring
import Mathlib.Tactic.NormNum

/-!
# Lemmas about the reluctance of gaps
-/

set_option linter.unusedSimpArgs false

namespace Verif.Reluctance

theorem mu0_pos : 0 < mu0 := by unfold mu0; norm_num

/-- Two parallel halves in series are the block itself. -/
theorem type1_eq (l w h : ℝ) : type1 l w h = basicReluctance l w h := by
  unfold type1
  by_cases hb : basicReluctance l w h = 0
  · rw [hb]; simp
  · field_simp

theorem gamma_eq {length w h : ℝ} (hl : 0 < length) (hw : 0 < w) (ht : basicTerm (length / 2) w h ≠ 0) :
    gamma length w h = w / length / basicTerm (length / 2) w h := by
  unfold gamma
  rw [type1_eq]
  unfold basicReluctance
  have := mu0_pos.ne'
  field_simp

/-- The term of the basic reluctance of a gap. -/
theorem basicTerm_eq {length w h : ℝ} (hl : 0 < length) :
    basicTerm (length / 2) w h = w / length + 2 / Real.pi * (1 + Real.log (Real.pi * h / (2 * length))) := by
  unfold basicTerm
  have e1 : w / 2 / (length / 2) = w / length := by field_simp
  have e2 : Real.pi * h / 4 / (length / 2) = Real.pi * h / (2 * length) := by field_simp; ring
  rw [e1, e2]

/-- Where the logarithmic term of the post to post gap is not negative. -/
theorem logTerm_nonneg {length h : ℝ} (hl : 0 < length) (hh : 0 < h) :
    0 ≤ 1 + Real.log (Real.pi * h / (2 * length)) ↔ 2 * length ≤ Real.pi * Real.exp 1 * h := by
  have hx : 0 < Real.pi * h / (2 * length) := by have := Real.pi_pos; positivity
  have : 1 + Real.log (Real.pi * h / (2 * length)) = Real.log (Real.exp 1 * (Real.pi * h / (2 * length))) := by
    rw [Real.log_mul (Real.exp_ne_zero 1) hx.ne', Real.log_exp]
  rw [this, Real.log_nonneg_iff (by positivity)]
  rw [show Real.exp 1 * (Real.pi * h / (2 * length)) = (Real.pi * Real.exp 1 * h) / (2 * length) by ring]
  rw [le_div_iff₀ (by positivity)]
  simp

theorem perimeter_pos {round : Bool} {w d : ℝ} (hw : 0 < w) (hd : 0 < d) : 0 < perimeter round w d := by
  unfold perimeter
  have := Real.pi_pos
  cases round <;> simp <;> positivity

/-- The reluctance of Zhang is the inverse of a permeance. -/
theorem zhang_permeance {length area p h : ℝ} (hl : 0 < length) :
    zhangReluctance length area p h = 1 / (mu0 * (area / length + p * Real.log ((2 * h + length) / length) / Real.pi)) := by
  unfold zhangReluctance
  congr 1
  have := mu0_pos.ne'
  field_simp

theorem zhang_log_nonneg {length h : ℝ} (hl : 0 < length) (hh : 0 ≤ h) : 0 ≤ Real.log ((2 * h + length) / length) := by
  apply Real.log_nonneg
  rw [le_div_iff₀ hl]
  linarith

theorem zhang_permeance_pos {length area p h : ℝ} (hl : 0 < length) (ha : 0 < area) (hp : 0 < p) (hh : 0 ≤ h) :
    0 < mu0 * (area / length + p * Real.log ((2 * h + length) / length) / Real.pi) := by
  have h1 := zhang_log_nonneg hl hh
  have h2 := mu0_pos
  have h3 := Real.pi_pos
  positivity

theorem foldl_energy (f : Answer → ℝ) (l : List Answer) (e : ℝ) :
    l.foldl (fun e a => e + f a) e = e + (l.map f).sum := by
  induction l generalizing e with
  | nil => simp
  | cons a l ih => simp only [List.foldl_cons, List.map_cons, List.sum_cons]; rw [ih]; ring

theorem foldl_factor (l : List Answer) (m : ℝ) :
    m ≤ l.foldl (fun m a => max m a.factor) m ∧ ∀ a ∈ l, a.factor ≤ l.foldl (fun m a => max m a.factor) m := by
  induction l generalizing m with
  | nil => simp
  | cons a l ih =>
    simp only [List.foldl_cons, List.mem_cons]
    obtain ⟨h1, h2⟩ := ih (max m a.factor)
    refine ⟨le_trans (le_max_left _ _) h1, ?_⟩
    rintro b (rfl | hb)
    · exact le_trans (le_max_right _ _) h1
    · exact h2 b hb

theorem foldl_factor_mem (l : List Answer) (m : ℝ) :
    l.foldl (fun m a => max m a.factor) m = m ∨ ∃ a ∈ l, a.factor = l.foldl (fun m a => max m a.factor) m := by
  induction l generalizing m with
  | nil => simp
  | cons a l ih =>
    simp only [List.foldl_cons, List.mem_cons]
    rcases ih (max m a.factor) with h | ⟨b, hb, h⟩
    · rcases le_total m a.factor with hm | hm
      · right; exact ⟨a, Or.inl rfl, by rw [h, max_eq_right hm]⟩
      · left; rw [h, max_eq_left hm]
    · right; exact ⟨b, Or.inr hb, h⟩

theorem mapM_ok {α β : Type} {f : α → Res β} {l : List α} {r : List β} (h : Res.mapM f l = .ok r) :
    List.Forall₂ (fun a b => f a = .ok b) l r := by
  induction l generalizing r with
  | nil => simp [Res.mapM] at h; subst h; exact .nil
  | cons a l ih =>
    simp only [Res.mapM] at h
    split at h
    · rename_i b hb
      split at h
      · rename_i l' hl'
        simp at h; subst h
        exact .cons hb (ih hl')
      all_goals simp at h
    all_goals simp at h

theorem greatest_ge (x : ℝ) (l : List ℝ) : x ≤ greatest x l ∧ ∀ y ∈ l, y ≤ greatest x l := by
  induction l generalizing x with
  | nil => simp [greatest]
  | cons a l ih =>
    obtain ⟨h1, h2⟩ := ih (max x a)
    simp only [greatest, List.foldl_cons, List.mem_cons] at *
    refine ⟨le_trans (le_max_left _ _) h1, ?_⟩
    rintro y (rfl | hy)
    · exact le_trans (le_max_right _ _) h1
    · exact h2 y hy

theorem least_le (x : ℝ) (l : List ℝ) : least x l ≤ x ∧ ∀ y ∈ l, least x l ≤ y := by
  induction l generalizing x with
  | nil => simp [least]
  | cons a l ih =>
    obtain ⟨h1, h2⟩ := ih (min x a)
    simp only [least, List.foldl_cons, List.mem_cons] at *
    refine ⟨le_trans h1 (min_le_left _ _), ?_⟩
    rintro y (rfl | hy)
    · exact le_trans h1 (min_le_right _ _)
    · exact h2 y hy

theorem highest_ok {top : ℝ} {points : List (Option MagnetizingCurrent)} {r : ℝ} (h : highest top points = .ok r) :
    top ≤ r ∧ (∀ m ∈ points, ∃ p, peakOf m = .ok p ∧ p ≤ r) ∧ (r = top ∨ ∃ m ∈ points, peakOf m = .ok r) := by
  induction points generalizing top with
  | nil => simp [highest] at h; simp [h]
  | cons m rest ih =>
    simp only [highest] at h
    split at h
    · rename_i p hp
      obtain ⟨h1, h2, h3⟩ := ih h
      refine ⟨le_trans (le_max_left _ _) h1, ?_, ?_⟩
      · intro m' hm'
        rcases List.mem_cons.mp hm' with rfl | hm'
        · exact ⟨p, hp, le_trans (le_max_right _ _) h1⟩
        · exact h2 m' hm'
      · rcases h3 with h3 | ⟨m', hm', h3⟩
        · rcases le_total top p with hle | hle
          · right; exact ⟨m, by simp, by rw [hp, h3, max_eq_right hle]⟩
          · left; rw [h3, max_eq_left hle]
        · right; exact ⟨m', by simp [hm'], h3⟩
    all_goals simp at h

end Verif.Reluctance
