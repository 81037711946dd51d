import Verif.WireAdvice.Spec
import Verif.Scoring.Props

/-! # The share of a value -/

set_option linter.unusedSectionVars false

namespace Verif.WireAdvice

open Verif.Scoring (Num)

variable {K : Type} [Field K] [LinearOrder K] [IsStrictOrderedRing K]

theorem share_unique {invert : Bool} {vs : List K} {v s t : K} (h1 : Share invert vs v s) (h2 : Share invert vs v t) : s = t := by
  obtain ⟨a, ha, b, hb, hab, e1, f1⟩ := h1
  obtain ⟨c, hc, d, hd, hcd, e2, f2⟩ := h2
  have h3 : a = c := le_antisymm (hab c hc).1 (hcd a ha).1
  have h4 : b = d := le_antisymm (hcd b hb).2 (hab d hd).2
  subst h3; subst h4
  rcases (hab b hb).1.eq_or_lt with h | h
  · rw [e1 h, e2 h]
  · have := (f1 h).trans (f2 h).symm
    exact mul_right_cancel₀ (sub_ne_zero.mpr h.ne') this

theorem share_congr {invert : Bool} {vs ws : List K} (hvw : ∀ x, x ∈ vs ↔ x ∈ ws) {v s : K} (h : Share invert vs v s) :
    Share invert ws v s := by
  obtain ⟨a, ha, b, hb, hab, e, f⟩ := h
  exact ⟨a, (hvw a).mp ha, b, (hvw b).mp hb, fun x hx => hab x ((hvw x).mpr hx), e, f⟩

theorem share_bounds {invert : Bool} {vs : List K} {v s : K} (hv : v ∈ vs) (h : Share invert vs v s) : 0 ≤ s ∧ s ≤ 1 := by
  obtain ⟨a, ha, b, hb, hab, e, f⟩ := h
  rcases (hab b hb).1.eq_or_lt with h | h
  · rw [e h]; exact ⟨zero_le_one, le_refl _⟩
  · have hd : 0 < b - a := sub_pos.mpr h
    have hs := f h
    have h1 := (hab v hv).1
    have h2 := (hab v hv).2
    cases invert
    · simp only [Bool.false_eq_true, if_false] at hs
      constructor
      · by_contra hn
        have := mul_neg_of_neg_of_pos (not_le.mp hn) hd
        linarith
      · by_contra hn
        have := mul_lt_mul_of_pos_right (not_le.mp hn) hd
        linarith
    · simp only [if_true] at hs
      constructor
      · by_contra hn
        have := mul_neg_of_neg_of_pos (not_le.mp hn) hd
        linarith
      · by_contra hn
        have := mul_lt_mul_of_pos_right (not_le.mp hn) hd
        linarith

/-- Of two values, the larger has the larger share, or the smaller if shares are inverted. -/
theorem share_mono {invert : Bool} {vs : List K} {u v s t : K} (hu : u ∈ vs) (hv : v ∈ vs) (h1 : Share invert vs u s)
    (h2 : Share invert vs v t) (huv : u < v) : if invert then t < s else s < t := by
  obtain ⟨a, ha, b, hb, hab, e1, f1⟩ := h1
  obtain ⟨c, hc, d, hd, hcd, e2, f2⟩ := h2
  have h3 : a = c := le_antisymm (hab c hc).1 (hcd a ha).1
  have h4 : b = d := le_antisymm (hcd b hb).2 (hab d hd).2
  subst h3; subst h4
  have h : a < b := lt_of_le_of_lt (hab u hu).1 (lt_of_lt_of_le huv (hab v hv).2)
  have hd : 0 < b - a := sub_pos.mpr h
  have hs := f1 h
  have ht := f2 h
  cases invert
  · simp only [Bool.false_eq_true, if_false] at hs ht ⊢
    by_contra hn
    have := mul_le_mul_of_nonneg_right (not_lt.mp hn) hd.le
    linarith
  · simp only [if_true] at hs ht ⊢
    by_contra hn
    have := mul_le_mul_of_nonneg_right (not_lt.mp hn) hd.le
    linarith

theorem normal_share (invert : Bool) {vs : List K} {v : K} (hv : v ∈ vs) : Share invert vs v (normal invert vs v) := by
  cases vs with
  | nil => simp at hv
  | cons x xs =>
    obtain ⟨h1, h2⟩ := greatest_spec xs x
    obtain ⟨h3, h4⟩ := least_spec xs x
    refine ⟨_, h3, _, h1, fun y hy => ⟨h4 y hy, h2 y hy⟩, ?_, ?_⟩
    · intro h
      unfold normal
      simp only
      rw [if_neg (show ¬ greatest x xs ≠ least x xs by simp [h])]
    · intro h
      have hd : greatest x xs - least x xs ≠ 0 := sub_ne_zero.mpr h.ne'
      unfold normal
      simp only
      rw [if_pos (show greatest x xs ≠ least x xs from h.ne')]
      cases invert
      · simp only [Bool.false_eq_true, if_false]
        field_simp
      · simp only [if_true]
        field_simp
        ring

theorem normal_congr (invert : Bool) {vs ws : List K} (h : ∀ x, x ∈ vs ↔ x ∈ ws) {v : K} (hv : v ∈ vs) :
    normal invert vs v = normal invert ws v :=
  share_unique (share_congr h (normal_share invert hv)) (normal_share invert ((h v).mp hv))

/-- The shares are those of the scoring of Utils.cpp (`Scoring.normalizeList`), with weight one and without logarithms. -/
theorem normal_agrees (lg : K → K) (invert : Bool) (vs : List K) :
    Scoring.normalizeList lg 1 invert false (vs.map Num.fin) = some (vs.map fun v => some (normal invert vs v)) := by
  obtain ⟨f, h, g⟩ := Scoring.normalize_linear lg 1 zero_le_one invert vs
  rw [h]
  congr 1
  refine List.map_congr_left fun v hv => ?_
  congr 1
  cases vs with
  | nil => simp at hv
  | cons x xs =>
    have h' := h
    obtain ⟨mn, mx, h1, h2, h3, h4, h5⟩ := Scoring.extremes x xs
    unfold Scoring.normalizeList at h'
    simp only [List.map_cons, h1, h2] at h'
    have hn : ((Num.fin x :: xs.map Num.fin).any fun v => decide (v = Num.nan)) = false := by simp
    rw [hn] at h'
    simp only [Bool.false_eq_true, if_false, Option.some.injEq] at h'
    have hg : greatest x xs = mx := by
      obtain ⟨a1, a2⟩ := greatest_spec xs x
      exact le_antisymm (h5 _ a1).2 (a2 _ h4)
    have hl : least x xs = mn := by
      obtain ⟨a1, a2⟩ := least_spec xs x
      exact le_antisymm (a2 _ h3) (h5 _ a1).1
    have hmap : ∀ y ∈ x :: xs, Scoring.score lg 1 invert false (Scoring.clampZero false mn) mx (Scoring.clampZero false y) = some (f y) := by
      have h6 : (x :: xs).map (fun y => Scoring.score lg 1 invert false (Scoring.clampZero false mn) mx (Scoring.clampZero false y)) =
          (x :: xs).map fun y => some (f y) := by
        rw [← List.map_cons (f := fun v => some (f v))] at h'
        rw [← h']
        simp [List.map_map, Function.comp_def]
      exact fun y hy => (List.map_inj_left.mp h6) y hy
    have := hmap v hv
    simp only [Scoring.score, Scoring.clampZero, Bool.false_eq_true, false_and, if_false] at this
    unfold normal
    simp only
    rw [hg, hl]
    by_cases hne : mx ≠ mn
    · rw [if_pos hne] at this ⊢
      cases invert <;> simp_all
    · rw [if_neg hne] at this ⊢
      simpa using this.symm

example : normal (K := ℚ) true [3, 1, 2] 2 = 1 / 2 ∧ normal (K := ℚ) false [3, 1, 2] 3 = 1 ∧ normal (K := ℚ) true [4, 4] 4 = 1 :=
  ⟨by decide +kernel, by decide +kernel, by decide +kernel⟩

end Verif.WireAdvice
