import Verif.Magnetizing.Gap
import Mathlib.Algebra.Order.Field.Rat
import Mathlib.Tactic.Linarith
import Mathlib.Tactic.Positivity
import Mathlib.Tactic.FieldSimp
import Mathlib.Tactic.Ring
import Mathlib.Tactic.NormNum

/-! # The gap for an inductance (C231, C232) -/

set_option linter.unusedSectionVars false

namespace Verif.Magnetizing.Gap

open Verif.Round (roundFloat)

variable {K : Type} [Field K] [LinearOrder K] [IsStrictOrderedRing K] [FloorRing K]

/-! ## C231: the gap that is found -/

/-- The reluctance needed is reached at exactly one length: shorter gaps have less, longer ones more. -/
structure Reached (reluctance : K → K) (needed exact : K) : Prop where
  here : reluctance exact = needed
  below : ∀ g, g < exact → reluctance g < needed
  above : ∀ g, exact < g → needed < reluctance g

/-- The reluctance is what is needed, to a thousandth. -/
abbrev Within (reluctance : K → K) (needed g : K) : Prop := |needed - reluctance g| / needed < 1 / 1000

variable {reluctance : K → K} {needed exact : K}

theorem residual_pos : (0 : K) < residual := by unfold residual; positivity

theorem within_exact (h : Reached reluctance needed exact) : Within reluctance needed exact := by
  unfold Within
  rw [h.here]
  simp

/-- What holds at the end of the search. -/
def Good (reluctance : K → K) (needed exact g : K) : Prop := Within reluctance needed g ∨ |g - exact| ≤ residual

/-- A move from a distance of no more than a step: either the step was halved, and the distance is no more than the new one, or the exact length was
reached or passed with the same step, in the direction of the move. -/
theorem move_near (h : Reached reluctance needed exact) (hr : residual ≤ exact) {gap step : K} {increasing : Bool} (hs : residual ≤ step)
    (hd : |gap - exact| ≤ step) (hne : ¬ Within reluctance needed gap) :
    ((move (reluctance gap) needed gap step increasing).2.1 = max (step / 2) residual ∧
      |(move (reluctance gap) needed gap step increasing).1 - exact| ≤ max (step / 2) residual) ∨
    ((move (reluctance gap) needed gap step increasing).2.1 = step ∧ |(move (reluctance gap) needed gap step increasing).1 - exact| ≤ step ∧
      ((increasing = true ∧ (move (reluctance gap) needed gap step increasing).2.2 = true ∧
          exact ≤ (move (reluctance gap) needed gap step increasing).1) ∨
        (increasing = false ∧ (move (reluctance gap) needed gap step increasing).2.2 = false ∧
          (move (reluctance gap) needed gap step increasing).1 ≤ exact))) := by
  have hp := residual_pos (K := K)
  have hm1 : step / 2 ≤ max (step / 2) residual := le_max_left _ _
  have hm2 : residual ≤ max (step / 2) residual := le_max_right _ _
  have hgt : gap ≠ exact := by rintro rfl; exact hne (within_exact h)
  rw [abs_le] at hd
  unfold move
  rcases lt_or_gt_of_ne hgt with hlt | hgt
  · have hrel := h.below gap hlt
    rw [if_neg (by rintro ⟨h1, _⟩; exact absurd h1 (not_lt.mpr hrel.le))]
    cases increasing with
    | false =>
      left
      rw [if_pos ⟨hrel, rfl⟩]
      refine ⟨rfl, ?_⟩
      rw [abs_le]
      constructor <;> dsimp only <;> linarith
    | true =>
      right
      rw [if_neg (by simp), if_pos rfl]
      refine ⟨rfl, ?_, .inl ⟨rfl, rfl, ?_⟩⟩
      · rw [abs_le]; constructor <;> dsimp only <;> linarith
      · dsimp only; linarith
  · have hrel := h.above gap hgt
    cases increasing with
    | true =>
      left
      rw [if_pos ⟨hrel, rfl⟩]
      refine ⟨rfl, ?_⟩
      rw [abs_le]
      dsimp only
      rcases max_cases residual (gap - max (step / 2) residual) with ⟨h1, h2⟩ | ⟨h1, h2⟩ <;> rw [h1] <;> constructor <;> linarith
    | false =>
      right
      rw [if_neg (by simp), if_neg (by rintro ⟨h1, _⟩; exact absurd h1 (not_lt.mpr hrel.le)), if_neg (by simp)]
      refine ⟨rfl, ?_, .inr ⟨rfl, rfl, ?_⟩⟩
      · rw [abs_le]
        dsimp only
        rcases max_cases residual (gap - step) with ⟨h1, h2⟩ | ⟨h1, h2⟩ <;> rw [h1] <;> constructor <;> linarith
      · dsimp only
        exact max_le hr (by linarith)

/-- A move when the exact length was passed in the direction of the search halves the step. -/
theorem move_passed (h : Reached reluctance needed exact) (hr : residual ≤ exact) {gap step : K} {increasing : Bool} (hs : residual ≤ step)
    (hd : |gap - exact| ≤ step) (hne : ¬ Within reluctance needed gap)
    (hpass : (increasing = true ∧ exact ≤ gap) ∨ (increasing = false ∧ gap ≤ exact)) :
    (move (reluctance gap) needed gap step increasing).2.1 = max (step / 2) residual ∧
      |(move (reluctance gap) needed gap step increasing).1 - exact| ≤ max (step / 2) residual := by
  have hgt : gap ≠ exact := by rintro rfl; exact hne (within_exact h)
  have hm1 : step / 2 ≤ max (step / 2) residual := le_max_left _ _
  have hm2 : residual ≤ max (step / 2) residual := le_max_right _ _
  have hp := residual_pos (K := K)
  rw [abs_le] at hd
  unfold move
  rcases hpass with ⟨rfl, hge⟩ | ⟨rfl, hle⟩
  · have hgt := lt_of_le_of_ne hge (Ne.symm hgt)
    have hrel := h.above gap hgt
    rw [if_pos ⟨hrel, rfl⟩]
    refine ⟨rfl, ?_⟩
    rw [abs_le]
    dsimp only
    rcases max_cases residual (gap - max (step / 2) residual) with ⟨h1, h2⟩ | ⟨h1, h2⟩ <;> rw [h1] <;> constructor <;> linarith
  · have hlt := lt_of_le_of_ne hle hgt
    have hrel := h.below gap hlt
    rw [if_neg (by rintro ⟨h1, _⟩; exact absurd h1 (not_lt.mpr hrel.le)), if_pos ⟨hrel, rfl⟩]
    refine ⟨rfl, ?_⟩
    rw [abs_le]
    constructor <;> dsimp only <;> linarith

theorem search_succ (left : ℕ) (gap step : K) (increasing : Bool) : search reluctance needed (left + 1) gap step increasing =
    if Within reluctance needed gap then gap
    else search reluctance needed left (move (reluctance gap) needed gap step increasing).1
      (move (reluctance gap) needed gap step increasing).2.1 (move (reluctance gap) needed gap step increasing).2.2 := rfl

/-- With the smallest step the search stays near. -/
theorem search_smallest (h : Reached reluctance needed exact) (hr : residual ≤ exact) : ∀ (left : ℕ) (gap : K) (increasing : Bool),
    |gap - exact| ≤ residual → Good reluctance needed exact (search reluctance needed left gap residual increasing)
  | 0, gap, increasing, hd => .inr hd
  | left + 1, gap, increasing, hd => by
    rw [search_succ]
    by_cases hw : Within reluctance needed gap
    · rw [if_pos hw]; exact .inl hw
    · rw [if_neg hw]
      have hp := residual_pos (K := K)
      have hmax : max ((residual : K) / 2) residual = residual := max_eq_right (by linarith)
      rcases move_near h hr (le_refl residual) hd hw with ⟨h1, h2⟩ | ⟨h1, h2, _⟩
      · rw [hmax] at h1 h2
        rw [h1]
        exact search_smallest h hr left _ _ h2
      · rw [h1]
        exact search_smallest h hr left _ _ h2

/-- From a distance of no more than a step, two moves halve both. -/
theorem search_near (h : Reached reluctance needed exact) (hr : residual ≤ exact) : ∀ (k left : ℕ) (gap step : K) (increasing : Bool),
    2 * k ≤ left → residual ≤ step → step ≤ 2 ^ k * residual → |gap - exact| ≤ step →
    Good reluctance needed exact (search reluctance needed left gap step increasing)
  | 0, left, gap, step, increasing, _, hs, hk, hd => by
    have : step = residual := le_antisymm (by simpa using hk) hs
    subst this
    exact search_smallest h hr left gap increasing hd
  | k + 1, left, gap, step, increasing, hl, hs, hk, hd => by
    have hp := residual_pos (K := K)
    have hhalf : max (step / 2) residual ≤ 2 ^ k * residual := by
      refine max_le ?_ ?_
      · rw [pow_succ] at hk; linarith
      · have : (1 : K) ≤ 2 ^ k := one_le_pow₀ (by norm_num)
        nlinarith
    obtain ⟨l1, rfl⟩ : ∃ l1, left = l1 + 1 := ⟨left - 1, by omega⟩
    obtain ⟨l2, rfl⟩ : ∃ l2, l1 = l2 + 1 := ⟨l1 - 1, by omega⟩
    rw [search_succ]
    by_cases hw : Within reluctance needed gap
    · rw [if_pos hw]; exact .inl hw
    rw [if_neg hw]
    rcases move_near h hr (increasing := increasing) hs hd hw with ⟨h1, h2⟩ | ⟨h1, h2, h3⟩
    · rw [h1]
      exact search_near h hr k (l2 + 1) _ _ _ (by omega) (le_max_right _ _) hhalf h2
    · rw [h1, search_succ]
      generalize (move (reluctance gap) needed gap step increasing).1 = gap' at *
      generalize (move (reluctance gap) needed gap step increasing).2.2 = inc' at *
      by_cases hw' : Within reluctance needed gap'
      · rw [if_pos hw']; exact .inl hw'
      rw [if_neg hw']
      have hpass : (inc' = true ∧ exact ≤ gap') ∨ (inc' = false ∧ gap' ≤ exact) := by
        rcases h3 with ⟨_, h4, h5⟩ | ⟨_, h4, h5⟩
        · exact .inl ⟨h4, h5⟩
        · exact .inr ⟨h4, h5⟩
      obtain ⟨h6, h7⟩ := move_passed h hr hs h2 hw' hpass
      rw [h6]
      exact search_near h hr k l2 _ _ _ (by omega) (le_max_right _ _) hhalf h7

/-- While the gap grows. -/
theorem search_growing (h : Reached reluctance needed exact) (hr : residual ≤ exact) : ∀ (m left : ℕ) (gap : K),
    m + 16 ≤ left → gap ≤ exact → exact - gap ≤ ((m : K) + 1) * initialStep →
    Good reluctance needed exact (search reluctance needed left gap initialStep true)
  | 0, left, gap, hl, hg, hd => by
    refine search_near h hr 8 left gap initialStep true (by omega) ?_ ?_ ?_
    · unfold residual initialStep; norm_num
    · unfold residual initialStep; norm_num
    · rw [abs_le]
      have : (0 : K) < initialStep := by unfold initialStep; positivity
      push_cast at hd
      constructor <;> linarith
  | m + 1, left, gap, hl, hg, hd => by
    by_cases hle : exact - gap ≤ initialStep
    · refine search_near h hr 8 left gap initialStep true (by omega) ?_ ?_ ?_
      · unfold residual initialStep; norm_num
      · unfold residual initialStep; norm_num
      · rw [abs_le]
        have : (0 : K) < initialStep := by unfold initialStep; positivity
        constructor <;> linarith
    · push Not at hle
      obtain ⟨l, rfl⟩ : ∃ l, left = l + 1 := ⟨left - 1, by omega⟩
      rw [search_succ]
      by_cases hw : Within reluctance needed gap
      · rw [if_pos hw]; exact .inl hw
      rw [if_neg hw]
      have hpos : (0 : K) < initialStep := by unfold initialStep; positivity
      have hlt : gap < exact := by linarith
      have hrel := h.below gap hlt
      have hmove : move (reluctance gap) needed gap initialStep true = (gap + initialStep, initialStep, true) := by
        unfold move
        rw [if_neg (by rintro ⟨h1, _⟩; exact absurd h1 (not_lt.mpr hrel.le)), if_neg (by simp), if_pos rfl]
      rw [hmove]
      refine search_growing h hr m l (gap + initialStep) (by omega) (by linarith) ?_
      push_cast at hd
      linarith

/-- **C231.** If the inductance is reached with exactly one gap, of no less than the residual one and no more than 85 millimetres, then the length that is
found, before it is rounded, has the reluctance to a thousandth, or is no further from the exact one than a residual gap.

Partial: the length is then rounded, see `rounded_away`; gaps outside these bounds are answered all the same, see `least_gap` and `longest_gap`. -/
theorem gap_found_partial (turns inductance : K) (h : Reached reluctance (turns ^ 2 / inductance) exact) (hr : residual ≤ exact)
    (hu : exact ≤ 85 / 1000) : Good reluctance (turns ^ 2 / inductance) exact (found reluctance turns inductance) := by
  refine search_growing h hr 84 100 residual (by omega) hr ?_
  have hp := residual_pos (K := K)
  unfold initialStep
  push_cast
  linarith

/-- **C231.** The length answered is never below the residual gap, and off the one found by no more than half of the last decimal, unless that is below the
residual gap. -/
theorem gap_rounded (turns inductance : K) (decimals : ℕ) : residual ≤ gapFor reluctance turns inductance decimals ∧
    (gapFor reluctance turns inductance decimals = residual ∨
      |gapFor reluctance turns inductance decimals - found reluctance turns inductance| ≤ 1 / 2 / 10 ^ decimals) := by
  refine ⟨le_max_left _ _, ?_⟩
  unfold gapFor
  rcases max_cases residual (roundFloat (found reluctance turns inductance) decimals) with ⟨h1, _⟩ | ⟨h1, _⟩
  · exact .inl h1
  · rw [h1]
    refine .inr ?_
    unfold roundFloat
    have hp : (0 : K) < 10 ^ decimals := by positivity
    have := Verif.Round.round_near (found reluctance turns inductance * 10 ^ decimals)
    have he : (Verif.Round.round (found reluctance turns inductance * 10 ^ decimals) : K) / 10 ^ decimals - found reluctance turns inductance =
        ((Verif.Round.round (found reluctance turns inductance * 10 ^ decimals) : K) - found reluctance turns inductance * 10 ^ decimals) / 10 ^ decimals := by
      field_simp
    rw [he, abs_div, abs_of_pos hp]
    gcongr

/-- **C231.** If even the residual gap has too much reluctance, it is what is answered. -/
theorem least_gap (turns inductance : K) (decimals : ℕ) (hpos : 0 < turns ^ 2 / inductance)
    (hmore : turns ^ 2 / inductance * (1001 / 1000) ≤ reluctance residual) (hd : roundFloat (residual : K) decimals ≤ residual) :
    gapFor reluctance turns inductance decimals = residual := by
  have hp := residual_pos (K := K)
  have hlt : turns ^ 2 / inductance < reluctance residual := by linarith
  have hnw : ¬ Within reluctance (turns ^ 2 / inductance) residual := by
    unfold Within
    rw [abs_of_neg (by linarith), not_lt, le_div_iff₀ hpos]
    linarith
  have hstay : ∀ (left : ℕ) (step : K), 0 ≤ step → search reluctance (turns ^ 2 / inductance) left residual step false = residual := by
    intro left
    induction left with
    | zero => intro step _; rfl
    | succ left ih =>
      intro step hs
      rw [search_succ, if_neg hnw]
      have hm : move (reluctance residual) (turns ^ 2 / inductance) residual step false = (residual, step, false) := by
        unfold move
        rw [if_neg (by simp), if_neg (by rintro ⟨h1, _⟩; exact absurd h1 (not_lt.mpr hlt.le)), if_neg (by simp), max_eq_left (by linarith)]
      rw [hm]
      exact ih step hs
  have hf : found reluctance turns inductance = residual := by
    unfold found
    rw [search_succ, if_neg hnw]
    have hm : move (reluctance residual) (turns ^ 2 / inductance) residual initialStep true =
        (residual, max (initialStep / 2) residual, false) := by
      unfold move
      rw [if_pos ⟨hlt, rfl⟩]
      have : residual ≤ max ((initialStep : K) / 2) residual := le_max_right _ _
      rw [max_eq_left (by linarith)]
    rw [hm]
    exact hstay 99 _ (le_trans hp.le (le_max_right _ _))
  unfold gapFor
  rw [hf]
  exact max_eq_left hd

/-- The reluctance of a core with one gap, of 1000 per square millimetre of gap length over area, as an example: ten turns a unit. -/
def affine (core slope : ℚ) (gap : ℚ) : ℚ := core + slope * gap

/-- **C231.** Forty micrometres are what is needed, and are found, but the residual gap is answered, of five: the length is rounded to a tenth of a
millimetre. The reluctance is below a third of what is needed. -/
theorem rounded_away : |found (affine 100000 10000000000) 1000 2 - 40 / 1000000| ≤ 5 / 1000000 ∧
    gapFor (affine 100000 10000000000) 1000 2 4 = 5 / 1000000 ∧
    affine 100000 10000000000 (5 / 1000000) < (1000 ^ 2 / 2) / 3 := by
  decide +kernel

/-- **C231.** A gap of half a metre is needed: a tenth is answered. -/
theorem longest_gap : gapFor (affine 0 1000000) 1000 2 4 = 1 / 10 ∧ affine 0 1000000 (1 / 10) = (1000 ^ 2 / 2) / 5 := by
  decide +kernel

/-- Case of `gap_found_partial`: an affine reluctance. -/
example : Reached (affine 100000 1000000000) (1000 ^ 2 / 1) (9 / 10000) ∧ (residual : ℚ) ≤ 9 / 10000 ∧ (9 / 10000 : ℚ) ≤ 85 / 1000 := by
  refine ⟨⟨by norm_num [affine], fun g hg => ?_, fun g hg => ?_⟩, by norm_num [residual], by norm_num⟩
  · simp only [affine]; linarith
  · simp only [affine]; linarith

/-- Case of `least_gap`. -/
example : (1000 ^ 2 / 5 : ℚ) * (1001 / 1000) ≤ affine 300000 1000000000 residual ∧ roundFloat (residual : ℚ) 4 ≤ residual := by
  decide +kernel

/-! ## C232: the permeability of the gap -/

/-- **C232.** With a magnetizing current given, the permeability is one from which a further correction is below one, or what is left after ten.

Partial: see `bias_ignored`. -/
theorem settled_partial (permeability field : K → K) : ∀ (left : ℕ) (unbiased : K),
    |settle permeability field left unbiased - permeability (field (settle permeability field left unbiased))| < 1 ∨
      settle permeability field left unbiased = (fun m => permeability (field m))^[left] unbiased
  | 0, unbiased => .inr rfl
  | left + 1, unbiased => by
    simp only [settle]
    split
    · rename_i h; exact .inl h
    · exact settled_partial permeability field left _

/-- **C232.** Without a magnetizing current in the excitation that is given, the bias makes no difference, even though the current is then taken for
it. -/
theorem bias_ignored (permeability field permeability' field' : K → K) (unbiased : K) :
    permeabilityUsed permeability field unbiased false = permeabilityUsed permeability' field' unbiased false ∧
      permeabilityUsed permeability field unbiased true = settle permeability field 10 unbiased := ⟨rfl, rfl⟩

/-- A permeability that halves with the bias: it is used if the magnetizing current was given, and not if it was taken from the current. -/
example : permeabilityUsed (fun h : ℚ => if h > 10 then 30 else 60) (fun m => 1200 / m) 60 true = 30 ∧
    permeabilityUsed (fun h : ℚ => if h > 10 then 30 else 60) (fun m => 1200 / m) 60 false = 60 := by
  decide +kernel

end Verif.Magnetizing.Gap
