import Mathlib.Tactic.Linarith
import Mathlib.Tactic.Ring
import Mathlib.Tactic.NormNum
import Mathlib.Algebra.Order.Field.Rat
import Mathlib.Data.List.Chain
import Verif.CoreLosses.Search

/-!
# Core losses: searches for the frequency or the flux density of some losses (C160)
-/

set_option linter.unusedSimpArgs false
set_option linter.unusedSectionVars false

namespace Verif.CoreLosses

variable {K : Type} [Field K] [LinearOrder K] [IsStrictOrderedRing K]

/-- The first of the nearest: of those tried, none has losses nearer to the target, and those before are all farther. -/
def IsNearest (losses : ℕ → K) (target : K) (l : List ℕ) (i : ℕ) : Prop :=
  ∃ a b, l = a ++ i :: b ∧ (∀ j ∈ a, |losses i - target| < |losses j - target|) ∧ ∀ j ∈ b, |losses i - target| ≤ |losses j - target|

theorem searchAll_spec (losses : ℕ → K) (target : K) (ht : 0 < target) (l done : List ℕ) (best : Option (K × ℕ))
    (hb : (done = [] ∧ best = none) ∨ ∃ i, IsNearest losses target done i ∧ best = some (|losses i - target| / target, i)) :
    ((done ++ l = [] ∧ searchAll losses target l best = none) ∨
      ∃ i, IsNearest losses target (done ++ l) i ∧ searchAll losses target l best = some (|losses i - target| / target, i)) := by
  induction l generalizing done best with
  | nil => simpa [searchAll] using hb
  | cons x l ih =>
    have he : errorOf target (losses x) = some (|losses x - target| / target) := by
      unfold errorOf; rw [if_neg ht.ne']
    rw [show done ++ x :: l = (done ++ [x]) ++ l by simp]
    unfold searchAll
    rw [he]
    apply ih
    right
    rcases hb with ⟨rfl, rfl⟩ | ⟨i, ⟨a, b, hd, ha, hbb⟩, rfl⟩
    · exact ⟨x, ⟨[], [], rfl, by simp, by simp⟩, rfl⟩
    · simp only []
      by_cases hlt : |losses x - target| / target < |losses i - target| / target
      · rw [if_pos hlt]
        have hlt' : |losses x - target| < |losses i - target| := (div_lt_div_iff_of_pos_right ht).mp hlt
        refine ⟨x, ⟨done, [], rfl, ?_, by simp⟩, rfl⟩
        intro j hj
        rw [hd] at hj
        rcases List.mem_append.mp hj with hj | hj
        · exact lt_trans hlt' (ha j hj)
        · rcases List.mem_cons.mp hj with rfl | hj
          · exact hlt'
          · exact lt_of_lt_of_le hlt' (hbb j hj)
      · rw [if_neg hlt]
        refine ⟨i, ⟨a, b ++ [x], by rw [hd]; simp, ha, ?_⟩, rfl⟩
        intro j hj
        rcases List.mem_append.mp hj with hj | hj
        · exact hbb j hj
        · simp at hj; subst hj
          by_contra hc
          exact hlt ((div_lt_div_iff_of_pos_right ht).mpr (not_le.mp hc))

/-- C160: for positive losses the frequency given is the first, from 10 kHz to 1.995 MHz in steps of 5 kHz, of those with losses
nearest to them. -/
theorem frequency_nearest (losses : ℕ → K) (target : K) (ht : 0 < target) :
    ∃ i, IsNearest losses target frequencies i ∧ searchFrequency losses target = i := by
  rcases searchAll_spec losses target ht frequencies [] none (Or.inl ⟨rfl, rfl⟩) with ⟨h, _⟩ | ⟨i, hi, h⟩
  · simp [frequencies] at h
  · refine ⟨i, by simpa using hi, ?_⟩
    unfold searchFrequency
    rw [h]

/-- C160: what is tried. -/
theorem frequencies_tried (i : ℕ) : i ∈ frequencies ↔ 10000 ≤ i ∧ i < 2000000 ∧ (i - 10000) % 5000 = 0 := by
  simp only [frequencies, List.mem_map, List.mem_range]
  constructor
  · rintro ⟨j, hj, rfl⟩; omega
  · rintro ⟨h1, h2, h3⟩
    exact ⟨(i - 10000) / 5000, by omega, by omega⟩

/-- C160: null losses are given a frequency of minus one. -/
theorem frequency_of_nothing (losses : ℕ → K) : searchFrequency losses 0 = -1 := by
  have : ∀ l, searchAll losses 0 l none = none := by
    intro l
    induction l with
    | nil => rfl
    | cons x l ih => unfold searchAll; simp only [errorOf, if_true]; exact ih
  unfold searchFrequency
  rw [this]

/-- C160: the amplitudes tried. -/
theorem amplitudes_tried (i : ℕ) : i ∈ millitesla ↔ 5 ≤ i ∧ i < 1000 ∧ i % 5 = 0 := by
  simp only [millitesla, List.mem_map, List.mem_range]
  constructor
  · rintro ⟨j, hj, rfl⟩; omega
  · rintro ⟨h1, h2, h3⟩
    exact ⟨(i - 5) / 5, by omega, by omega⟩

/-- Losses that grow along a list. -/
def Growing (losses : ℕ → K) (l : List ℕ) : Prop := l.Pairwise fun i j => losses i ≤ losses j

/-- What the search among amplitudes knows after some of them. -/
def Known (losses : ℕ → K) (target : K) (done : List ℕ) (previous : Option K) (best : Option (K × ℕ)) : Prop :=
  (done = [] ∧ previous = none ∧ best = none) ∨
  ∃ i last before, done = before ++ [last] ∧ IsNearest losses target done i ∧ best = some (|losses i - target| / target, i) ∧
    previous = some (|losses last - target| / target)

theorem nearest_extend {losses : ℕ → K} {target : K} {done : List ℕ} {i x : ℕ} (h : IsNearest losses target done i) :
    (|losses x - target| < |losses i - target| → IsNearest losses target (done ++ [x]) x) ∧
    (|losses i - target| ≤ |losses x - target| → IsNearest losses target (done ++ [x]) i) := by
  obtain ⟨a, b, hd, ha, hb⟩ := h
  constructor
  · intro hlt
    refine ⟨done, [], rfl, ?_, by simp⟩
    intro j hj
    rw [hd] at hj
    rcases List.mem_append.mp hj with hj | hj
    · exact lt_trans hlt (ha j hj)
    · rcases List.mem_cons.mp hj with rfl | hj
      · exact hlt
      · exact lt_of_lt_of_le hlt (hb j hj)
  · intro hle
    refine ⟨a, b ++ [x], by rw [hd]; simp, ha, ?_⟩
    intro j hj
    rcases List.mem_append.mp hj with hj | hj
    · exact hb j hj
    · simp at hj; subst hj; exact hle

theorem nearest_append {losses : ℕ → K} {target : K} {done l : List ℕ} {i : ℕ} (h : IsNearest losses target done i)
    (hl : ∀ j ∈ l, |losses i - target| ≤ |losses j - target|) : IsNearest losses target (done ++ l) i := by
  obtain ⟨a, b, hd, ha, hb⟩ := h
  refine ⟨a, b ++ l, by rw [hd]; simp, ha, ?_⟩
  intro j hj
  rcases List.mem_append.mp hj with hj | hj
  · exact hb j hj
  · exact hl j hj

theorem searchUntil_spec (losses : ℕ → K) (target : K) (ht : 0 < target) (l done : List ℕ) (previous : Option K)
    (best : Option (K × ℕ)) (hg : Growing losses (done ++ l)) (hk : Known losses target done previous best) :
    (done ++ l = [] ∧ searchUntil losses target l previous best = none) ∨
      ∃ i, IsNearest losses target (done ++ l) i ∧ searchUntil losses target l previous best = some (|losses i - target| / target, i) := by
  induction l generalizing done previous best with
  | nil =>
    rcases hk with ⟨rfl, rfl, rfl⟩ | ⟨i, last, before, _, hi, rfl, rfl⟩
    · exact Or.inl ⟨rfl, rfl⟩
    · exact Or.inr ⟨i, by simpa using hi, rfl⟩
  | cons x l ih =>
    have he : errorOf target (losses x) = some (|losses x - target| / target) := by
      unfold errorOf; rw [if_neg ht.ne']
    rw [show done ++ x :: l = (done ++ [x]) ++ l by simp] at hg ⊢
    unfold searchUntil
    rw [he]
    simp only []
    rcases hk with ⟨rfl, rfl, rfl⟩ | ⟨i, last, before, hdone, hi, rfl, rfl⟩
    · simp only []
      apply ih _ _ _ hg
      exact Or.inr ⟨x, x, [], rfl, ⟨[], [], rfl, by simp, by simp⟩, rfl, rfl⟩
    · simp only []
      have hd : (|losses x - target| / target < |losses i - target| / target) ↔ |losses x - target| < |losses i - target| :=
        div_lt_div_iff_of_pos_right ht
      have hd2 : (|losses last - target| / target < |losses x - target| / target) ↔ |losses last - target| < |losses x - target| :=
        div_lt_div_iff_of_pos_right ht
      obtain ⟨k, hk1, hk2⟩ : ∃ k, IsNearest losses target (done ++ [x]) k ∧
          (if |losses x - target| / target < |losses i - target| / target then some (|losses x - target| / target, x)
            else some (|losses i - target| / target, i)) = some (|losses k - target| / target, k) := by
        by_cases h : |losses x - target| < |losses i - target|
        · exact ⟨x, (nearest_extend hi).1 h, by rw [if_pos (hd.mpr h)]⟩
        · exact ⟨i, (nearest_extend hi).2 (not_lt.mp h), by rw [if_neg (fun h' => h (hd.mp h'))]⟩
      rw [hk2]
      by_cases hb : |losses last - target| < |losses x - target|
      · rw [if_pos (hd2.mpr hb)]
        refine Or.inr ⟨k, nearest_append hk1 ?_, rfl⟩
        intro j hj
        -- past the target, losses only go away from it
        have hlx : losses last ≤ losses x := by
          have := List.pairwise_append.mp hg
          have h1 := List.pairwise_append.mp this.1
          exact h1.2.2 last (by rw [hdone]; simp) x (by simp)
        have hxj : losses x ≤ losses j := by
          have := List.pairwise_append.mp hg
          exact this.2.2 x (by simp) j hj
        have htx : target ≤ losses x := by
          by_contra hc
          rw [abs_of_neg (by linarith : losses x - target < 0), abs_of_neg (by linarith : losses last - target < 0)] at hb
          linarith
        have hkx : |losses k - target| ≤ |losses x - target| := by
          obtain ⟨a, b, hd, ha, hb⟩ := hk1
          have hx : x ∈ a ++ k :: b := by rw [← hd]; simp
          rcases List.mem_append.mp hx with hx | hx
          · exact (ha x hx).le
          · rcases List.mem_cons.mp hx with rfl | hx
            · exact le_refl _
            · exact hb x hx
        refine le_trans hkx ?_
        rw [abs_of_nonneg (by linarith), abs_of_nonneg (by linarith)]
        linarith
      · rw [if_neg (fun h' => hb (hd2.mp h'))]
        apply ih _ _ _ hg
        exact Or.inr ⟨k, x, done, rfl, hk1, rfl, rfl⟩

/-- C160: for positive losses, if they grow with the amplitude, the amplitude given is the first, from 5 mT to 995 mT in steps of 5 mT,
of those with losses nearest to them. -/
theorem flux_nearest_partial (losses : ℕ → K) (target : K) (ht : 0 < target) (hg : Growing losses millitesla) :
    ∃ i, IsNearest losses target millitesla i ∧ searchFlux losses target = some i := by
  rcases searchUntil_spec losses target ht millitesla [] none none hg (Or.inl ⟨rfl, rfl, rfl⟩) with ⟨h, _⟩ | ⟨i, hi, h⟩
  · simp [millitesla] at h
  · refine ⟨i, by simpa using hi, ?_⟩
    unfold searchFlux
    rw [h]; rfl

/-- C160: null losses are given an empty flux density. -/
theorem flux_of_nothing (losses : ℕ → K) : searchFlux losses 0 = none := by
  have : millitesla = 5 :: (List.range 198).map (fun i => 10 + 5 * i) := by decide +kernel
  unfold searchFlux
  rw [this]
  unfold searchUntil
  simp [errorOf]

/-- C160: that they grow is needed: the search ends as soon as the error does, even if the losses sought come later. -/
theorem flux_stops_early : ∃ losses : ℕ → ℚ, (∃ j ∈ millitesla, losses j = 10) ∧ searchFlux losses 10 = some 5 := by
  refine ⟨fun i => if i = 5 then 8 else if i = 10 then 7 else 10, ⟨15, by decide, rfl⟩, by decide +kernel⟩

example : searchFlux (fun i : ℕ => (i : ℚ) ^ 2) 170 = some 15 := by decide +kernel
example : searchFrequency (fun i : ℕ => (i : ℚ) / 1000) 1000 = 1000000 := by decide +kernel

end Verif.CoreLosses
