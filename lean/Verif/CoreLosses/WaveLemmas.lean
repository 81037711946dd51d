import Mathlib.Analysis.Convex.SpecificFunctions.Basic
import Verif.CoreLosses.Lemmas

/-!
# Core losses: lemmas on waveforms
-/

set_option linter.unusedSimpArgs false

namespace Verif.CoreLosses

/-- The integral of the absolute slope to a power of the waveform made of segments between the points. -/
noncomputable def integral (alpha : ℝ) : List (ℝ × ℝ) → ℝ
  | p :: q :: l => |(q.2 - p.2) / (q.1 - p.1)| ^ alpha * (q.1 - p.1) + integral alpha (q :: l)
  | _ => 0

/-- The instants increase. -/
def Rising (points : List (ℝ × ℝ)) : Prop := points.IsChain fun p q => p.1 < q.1

/-- How much the value changes, up and down. -/
noncomputable def variation : List (ℝ × ℝ) → ℝ
  | p :: q :: l => |q.2 - p.2| + variation (q :: l)
  | _ => 0

theorem Rising.tail {p : ℝ × ℝ} {l : List (ℝ × ℝ)} (h : Rising (p :: l)) : Rising l := List.IsChain.tail h

theorem Rising.head {p q : ℝ × ℝ} {l : List (ℝ × ℝ)} (h : Rising (p :: q :: l)) : p.1 < q.1 := by
  unfold Rising at h
  rw [List.isChain_cons_cons] at h
  exact h.1

theorem overSteps_cons (g : ℝ → ℝ → Res ℝ) (p q : ℝ × ℝ) (l : List (ℝ × ℝ)) (h : p.1 < q.1) :
    overSteps g (p :: q :: l) = (g (q.1 - p.1) (q.2 - p.2)).bind fun a => (overSteps g (q :: l)).bind fun b => .ok (a + b) := by
  unfold overSteps
  rw [if_neg (by simp), if_neg (by simp)]
  simp only [steps, List.foldr_cons]
  rw [if_neg (by linarith)]

theorem overSteps_singleton (g : ℝ → ℝ → Res ℝ) (p : ℝ × ℝ) : overSteps g [p] = .ok 0 := by
  unfold overSteps
  rw [if_neg (by simp)]
  rfl

theorem slopes_eq {alpha : ℝ} (ha : 0 ≤ alpha) : ∀ {points : List (ℝ × ℝ)}, points ≠ [] → Rising points →
    slopes alpha points = .ok (integral alpha points)
  | [], h, _ => absurd rfl h
  | [p], _, _ => overSteps_singleton _ p
  | p :: q :: l, _, hr => by
    have ih := slopes_eq ha (points := q :: l) (by simp) hr.tail
    unfold slopes at ih ⊢
    rw [overSteps_cons _ _ _ _ hr.head, ih, cpow_nonneg (abs_nonneg _) ha]
    rfl

theorem squares_eq (c : ℝ) (g : ℝ → ℝ → Res ℝ) (hg : ∀ dt db, 0 < dt → g dt db = .ok (c * ((db / dt) ^ 2 * dt))) :
    ∀ {points : List (ℝ × ℝ)}, points ≠ [] → Rising points → overSteps g points = .ok (c * integral 2 points)
  | [], h, _ => absurd rfl h
  | [p], _, _ => by rw [overSteps_singleton]; simp [integral]
  | p :: q :: l, _, hr => by
    have ih := squares_eq c g hg (points := q :: l) (by simp) hr.tail
    have h := hr.head
    rw [overSteps_cons _ _ _ _ h, ih, hg _ _ (by linarith)]
    simp only [Res.bind, integral]
    rw [Real.rpow_two, sq_abs]
    congr 1; ring

theorem integral_nonneg (alpha : ℝ) : ∀ {points : List (ℝ × ℝ)}, Rising points → 0 ≤ integral alpha points
  | [], _ => le_refl _
  | [_], _ => le_refl _
  | p :: q :: l, hr => by
    have ih := integral_nonneg alpha hr.tail
    have h := hr.head
    simp only [integral]
    have := Real.rpow_nonneg (abs_nonneg ((q.2 - p.2) / (q.1 - p.1))) alpha
    have := mul_nonneg this (by linarith : 0 ≤ q.1 - p.1)
    linarith

theorem integral_append (alpha : ℝ) (p : ℝ × ℝ) (b : List (ℝ × ℝ)) : ∀ a : List (ℝ × ℝ),
    integral alpha (a ++ p :: b) = integral alpha (a ++ [p]) + integral alpha (p :: b)
  | [] => by simp [integral]
  | [x] => by simp [integral]
  | x :: y :: a => by
    have ih := integral_append alpha p b (y :: a)
    simp only [List.cons_append, integral] at ih ⊢
    rw [ih]; ring

theorem variation_append (p : ℝ × ℝ) (b : List (ℝ × ℝ)) : ∀ a : List (ℝ × ℝ),
    variation (a ++ p :: b) = variation (a ++ [p]) + variation (p :: b)
  | [] => by simp [variation]
  | [x] => by simp [variation]
  | x :: y :: a => by
    have ih := variation_append p b (y :: a)
    simp only [List.cons_append, variation] at ih ⊢
    rw [ih]; ring

theorem variation_ends (p q : ℝ × ℝ) : ∀ l : List (ℝ × ℝ), |q.2 - p.2| ≤ variation (p :: (l ++ [q]))
  | [] => by simp [variation]
  | x :: l => by
    have ih := variation_ends x q l
    simp only [List.cons_append, variation]
    have : |q.2 - p.2| ≤ |q.2 - x.2| + |x.2 - p.2| := abs_sub_le _ _ _
    linarith

theorem variation_nonneg : ∀ l : List (ℝ × ℝ), 0 ≤ variation l
  | [] => le_refl _
  | [_] => le_refl _
  | p :: q :: l => by
    have := variation_nonneg (q :: l)
    simp only [variation]
    have := abs_nonneg (q.2 - p.2)
    linarith

/-- A waveform that ends where it starts goes along the distance between any two of its values twice. -/
theorem variation_closed (p q x y : ℝ × ℝ) (a b c : List (ℝ × ℝ)) (l : List (ℝ × ℝ)) (hpq : q.2 = p.2)
    (hl : p :: (l ++ [q]) = a ++ x :: b ++ y :: c) : 2 * |y.2 - x.2| ≤ variation (p :: (l ++ [q])) := by
  have h1 : |x.2 - p.2| ≤ variation (a ++ [x]) := by
    cases a with
    | nil => simp at hl; rw [hl.1]; simp [variation]
    | cons z a => simp at hl; rw [hl.1]; exact variation_ends z x a
  have h3 : |q.2 - y.2| ≤ variation (y :: c) := by
    rcases c.eq_nil_or_concat with rfl | ⟨c', z, rfl⟩
    · have : (p :: (l ++ [q])).getLast? = (a ++ x :: b ++ [y]).getLast? := by rw [hl]
      simp [List.getLast?_cons, List.getLast?_append] at this
      rw [this]; simp [variation]
    · have : (p :: (l ++ [q])).getLast? = (a ++ x :: b ++ y :: (c'.concat z)).getLast? := by rw [hl]
      simp [List.getLast?_cons, List.getLast?_append] at this
      rw [this, List.concat_eq_append]
      exact variation_ends y z c'
  have h2 : |y.2 - x.2| ≤ variation (x :: (b ++ [y])) := variation_ends x y b
  have : variation (p :: (l ++ [q])) = variation (a ++ [x]) + variation (x :: (b ++ [y])) + variation (y :: c) := by
    have e1 := variation_append x (b ++ y :: c) a
    have e2 := variation_append y c (x :: b)
    simp only [List.cons_append] at e2
    rw [hl, List.append_assoc, List.cons_append, e1, e2]
    ring
  rw [this]
  have h4 : |y.2 - x.2| ≤ |x.2 - p.2| + |q.2 - y.2| := by
    have := abs_sub_le y.2 p.2 x.2
    rw [abs_sub_comm p.2 x.2, abs_sub_comm y.2 p.2, ← hpq] at this
    rw [← hpq]; linarith
  linarith

/-- Two intervals: as for one of the whole length and the whole change, or more. -/
theorem jensen_two {alpha v w s t : ℝ} (ha : 1 ≤ alpha) (hv : 0 ≤ v) (hw : 0 ≤ w) (hs : 0 < s) (ht : 0 < t) :
    ((v + w) / (s + t)) ^ alpha * (s + t) ≤ (v / s) ^ alpha * s + (w / t) ^ alpha * t := by
  have hst : 0 < s + t := by linarith
  have hx : v / s ∈ Set.Ici (0 : ℝ) := by simp; positivity
  have hy : w / t ∈ Set.Ici (0 : ℝ) := by simp; positivity
  have := (convexOn_rpow ha).2 hx hy (by positivity : 0 ≤ s / (s + t)) (by positivity : 0 ≤ t / (s + t)) (by field_simp)
  simp only [smul_eq_mul] at this
  have h1 : s / (s + t) * (v / s) + t / (s + t) * (w / t) = (v + w) / (s + t) := by field_simp
  rw [h1] at this
  have := mul_le_mul_of_nonneg_right this hst.le
  calc ((v + w) / (s + t)) ^ alpha * (s + t) ≤ _ := this
    _ = _ := by field_simp

theorem jensen {alpha : ℝ} (ha : 1 ≤ alpha) (q : ℝ × ℝ) : ∀ (l : List (ℝ × ℝ)) (p : ℝ × ℝ), Rising (p :: (l ++ [q])) →
    p.1 < q.1 ∧ (variation (p :: (l ++ [q])) / (q.1 - p.1)) ^ alpha * (q.1 - p.1) ≤ integral alpha (p :: (l ++ [q]))
  | [], p, hr => by
    have h : p.1 < q.1 := Rising.head hr
    refine ⟨h, ?_⟩
    simp only [List.nil_append, variation, integral, add_zero]
    rw [abs_div, abs_of_pos (by linarith : 0 < q.1 - p.1)]
  | x :: l, p, hr => by
    obtain ⟨h, ih⟩ := jensen ha q l x (Rising.tail hr)
    have hp : p.1 < x.1 := Rising.head hr
    refine ⟨lt_trans hp h, ?_⟩
    simp only [List.cons_append, variation, integral]
    have := jensen_two ha (abs_nonneg (x.2 - p.2)) (variation_nonneg (x :: (l ++ [q]))) (by linarith : 0 < x.1 - p.1)
      (by linarith : 0 < q.1 - x.1)
    rw [show x.1 - p.1 + (q.1 - x.1) = q.1 - p.1 by ring] at this
    rw [abs_div, abs_of_pos (by linarith : 0 < x.1 - p.1)]
    linarith

theorem angles_pos (setting : ℕ) (hs : 0 < setting) (alpha : ℝ) : 0 < angles setting alpha := by
  unfold angles
  have hk : (0 : ℝ) < setting := by exact_mod_cast hs
  apply Finset.sum_pos'
  · intro n _
    have := Real.rpow_nonneg (abs_nonneg (Real.cos (n * 2 * Real.pi / setting))) alpha
    have := Real.pi_pos
    positivity
  · refine ⟨0, Finset.mem_range.mpr hs, ?_⟩
    have := Real.pi_pos
    simp
    positivity

theorem ki_nonneg (setting : ℕ) (hs : 0 < setting) (d : Datum ℝ) (hk : 0 ≤ d.k) : 0 ≤ ki setting d := by
  unfold ki
  have := angles_pos setting hs d.alpha
  have := Real.pi_pos
  positivity

theorem ki_pos (setting : ℕ) (hs : 0 < setting) (d : Datum ℝ) (hk : 0 < d.k) : 0 < ki setting d := by
  unfold ki
  have := angles_pos setting hs d.alpha
  have := Real.pi_pos
  positivity

end Verif.CoreLosses
