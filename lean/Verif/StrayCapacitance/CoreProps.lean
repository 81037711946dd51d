import Verif.StrayCapacitance.Model
import Mathlib.Tactic.Linarith
import Mathlib.Tactic.LinearCombination
import Mathlib.Tactic.FieldSimp
import Mathlib.Tactic.Ring
import Mathlib.Tactic.Positivity
import Mathlib.Tactic.NormNum

/-!
# The core as a floating conductor between turns

C143.
-/

set_option linter.unusedSectionVars false

namespace Verif.StrayCapacitance

variable {K : Type} [Field K] [LinearOrder K] [IsStrictOrderedRing K]

/-! ## Lemmas: sums over elements -/

theorem coreEnergyAt_cons (p : K × K) (l : List (K × K)) (v : K) :
    coreEnergyAt (p :: l) v = 1 / 2 * p.1 * (p.2 - v) ^ 2 + coreEnergyAt l v := by
  simp [coreEnergyAt]

theorem sumC_cons (p : K × K) (l : List (K × K)) : sumC (p :: l) = p.1 + sumC l := by simp [sumC]
theorem sumCV_cons (p : K × K) (l : List (K × K)) : sumCV (p :: l) = p.1 * p.2 + sumCV l := by simp [sumCV]

/-- Moving the potential of the core. -/
theorem coreEnergyAt_move (l : List (K × K)) (v w : K) :
    coreEnergyAt l w = coreEnergyAt l v + (v - w) * (sumCV l - sumC l * v) + 1 / 2 * sumC l * (w - v) ^ 2 := by
  induction l with
  | nil => simp [coreEnergyAt, sumC, sumCV]
  | cons p l ih =>
    rw [coreEnergyAt_cons, coreEnergyAt_cons, sumC_cons, sumCV_cons, ih]
    ring

theorem coreEnergyAt_nonneg {l : List (K × K)} (h : ∀ p ∈ l, 0 ≤ p.1) (v : K) : 0 ≤ coreEnergyAt l v := by
  induction l with
  | nil => simp [coreEnergyAt]
  | cons p l ih =>
    rw [coreEnergyAt_cons]
    have h1 := h p (by simp)
    have h2 := ih fun q hq => h q (by simp [hq])
    positivity

theorem coreEnergyAt_le {l : List (K × K)} (h : ∀ p ∈ l, 0 ≤ p.1) {v s : K} (hs : ∀ p ∈ l, (p.2 - v) ^ 2 ≤ s) :
    coreEnergyAt l v ≤ 1 / 2 * sumC l * s := by
  induction l with
  | nil => simp [coreEnergyAt, sumC]
  | cons p l ih =>
    rw [coreEnergyAt_cons, sumC_cons]
    have h1 := h p (by simp)
    have h2 := ih (fun q hq => h q (by simp [hq])) (fun q hq => hs q (by simp [hq]))
    have h3 := hs p (by simp)
    have h4 : 1 / 2 * p.1 * (p.2 - v) ^ 2 ≤ 1 / 2 * p.1 * s := mul_le_mul_of_nonneg_left h3 (by positivity)
    linarith

theorem sumC_nonneg {l : List (K × K)} (h : ∀ p ∈ l, 0 ≤ p.1) : 0 ≤ sumC l := by
  induction l with
  | nil => simp [sumC]
  | cons p l ih =>
    rw [sumC_cons]
    have := h p (by simp)
    have := ih fun q hq => h q (by simp [hq])
    linarith

theorem foldl_max_ge (xs : List K) : ∀ x, x ≤ xs.foldl max x ∧ ∀ y ∈ xs, y ≤ xs.foldl max x := by
  induction xs with
  | nil => intro x; simp
  | cons a xs ih =>
    intro x
    obtain ⟨h1, h2⟩ := ih (max x a)
    refine ⟨le_trans (le_max_left _ _) h1, ?_⟩
    intro y hy
    rcases List.mem_cons.mp hy with rfl | hy
    · exact le_trans (le_max_right _ _) h1
    · exact h2 y hy

theorem foldl_max_mem (xs : List K) : ∀ x, xs.foldl max x ∈ x :: xs := by
  induction xs with
  | nil => intro x; simp
  | cons a xs ih =>
    intro x
    rcases List.mem_cons.mp (ih (max x a)) with h | h
    · rcases max_choice x a with h2 | h2
      · simp only [List.foldl_cons]; rw [h, h2]; simp
      · simp only [List.foldl_cons]; rw [h, h2]; simp
    · simp only [List.foldl_cons]; simp [h]

theorem foldl_min_le (xs : List K) : ∀ x, xs.foldl min x ≤ x ∧ ∀ y ∈ xs, xs.foldl min x ≤ y := by
  induction xs with
  | nil => intro x; simp
  | cons a xs ih =>
    intro x
    obtain ⟨h1, h2⟩ := ih (min x a)
    refine ⟨le_trans h1 (min_le_left _ _), ?_⟩
    intro y hy
    rcases List.mem_cons.mp hy with rfl | hy
    · exact le_trans h1 (min_le_right _ _)
    · exact h2 y hy

theorem foldl_min_mem (xs : List K) : ∀ x, xs.foldl min x ∈ x :: xs := by
  induction xs with
  | nil => intro x; simp
  | cons a xs ih =>
    intro x
    rcases List.mem_cons.mp (ih (min x a)) with h | h
    · rcases min_choice x a with h2 | h2
      · simp only [List.foldl_cons]; rw [h, h2]; simp
      · simp only [List.foldl_cons]; rw [h, h2]; simp
    · simp only [List.foldl_cons]; simp [h]

/-- The largest of a list is in it and no smaller than any of it. -/
theorem maxOf_eq_some {l : List K} {m : K} : maxOf l = some m ↔ m ∈ l ∧ ∀ y ∈ l, y ≤ m := by
  cases l with
  | nil => simp [maxOf]
  | cons x xs =>
    simp only [maxOf, Option.some.injEq]
    have h1 := foldl_max_mem xs x
    have h2 := foldl_max_ge xs x
    constructor
    · rintro rfl
      refine ⟨h1, ?_⟩
      intro y hy
      rcases List.mem_cons.mp hy with rfl | hy
      · exact h2.1
      · exact h2.2 y hy
    · rintro ⟨h3, h4⟩
      apply le_antisymm (h4 _ h1)
      rcases List.mem_cons.mp h3 with rfl | h3
      · exact h2.1
      · exact h2.2 _ h3

theorem minOf_eq_some {l : List K} {m : K} : minOf l = some m ↔ m ∈ l ∧ ∀ y ∈ l, m ≤ y := by
  cases l with
  | nil => simp [minOf]
  | cons x xs =>
    simp only [minOf, Option.some.injEq]
    have h1 := foldl_min_mem xs x
    have h2 := foldl_min_le xs x
    constructor
    · rintro rfl
      refine ⟨h1, ?_⟩
      intro y hy
      rcases List.mem_cons.mp hy with rfl | hy
      · exact h2.1
      · exact h2.2 y hy
    · rintro ⟨h3, h4⟩
      apply le_antisymm _ (h4 _ h1)
      rcases List.mem_cons.mp h3 with rfl | h3
      · exact h2.1
      · exact h2.2 _ h3

theorem maxOf_eq_none {l : List K} : maxOf l = none ↔ l = [] := by cases l <;> simp [maxOf]
theorem minOf_eq_none {l : List K} : minOf l = none ↔ l = [] := by cases l <;> simp [minOf]

/-! ## Specification -/

namespace Spec

/-- The energy in elements between turns and a core which is at potential `v`: half of each capacitance times the square of the
voltage across it. -/
def energy (l : List (K × K)) (v : K) : K := (l.map fun p => p.1 * (p.2 - v) ^ 2 / 2).sum

/-- The charge that the core takes from the elements when it is at potential `v`. -/
def charge (l : List (K × K)) (v : K) : K := (l.map fun p => p.1 * (p.2 - v)).sum

/-- The capacitances of the elements together. -/
def total (l : List (K × K)) : K := (l.map Prod.fst).sum

/-- Elements and potentials of two windings to the core: the second one with its sign changed. -/
def elements (toCore volt : Nat → K) (first second : String) (turns : List Turn) : List (K × K) :=
  (turns.zipIdx.filter fun ti => ti.1.winding = first ∨ ti.1.winding = second).map fun ti =>
    (toCore ti.2, if ti.1.winding = first then volt ti.2 else -volt ti.2)

/-- Capacitance of a winding to the core: the elements of its turns together. -/
def toTheCore (toCore : Nat → K) (name : String) (turns : List Turn) : K :=
  (turns.zipIdx.map fun ti => if ti.1.winding = name then toCore ti.2 else 0).sum

end Spec

theorem energy_eq (l : List (K × K)) (v : K) : Spec.energy l v = coreEnergyAt l v := by
  unfold Spec.energy coreEnergyAt
  congr 1
  apply List.map_congr_left
  intro p _
  ring

theorem total_eq (l : List (K × K)) : Spec.total l = sumC l := rfl

theorem charge_eq (l : List (K × K)) (v : K) : Spec.charge l v = sumCV l - sumC l * v := by
  induction l with
  | nil => simp [Spec.charge, sumCV, sumC]
  | cons p l ih =>
    rw [sumC_cons, sumCV_cons]
    simp only [Spec.charge, List.map_cons, List.sum_cons] at ih ⊢
    rw [ih]
    ring

theorem elements_eq (toCore volt : Nat → K) (first second : String) (turns : List Turn) :
    throughElements toCore volt first second turns = Spec.elements toCore volt first second turns := by
  unfold throughElements Spec.elements
  induction turns.zipIdx with
  | nil => rfl
  | cons ti l ih =>
    rw [List.filterMap_cons, List.filter_cons, ih]
    by_cases h1 : ti.1.winding = first
    · simp [h1]
    · by_cases h2 : ti.1.winding = second
      · simp only [h1, h2, if_false, if_true, or_true, decide_true, List.map_cons]
        have : ¬ second = first := by rw [← h2]; exact h1
        simp [this]
      · simp [h1, h2]

/-! ## The core floats -/

/-- C143: the energy that the core adds to a winding is that with the core at the potential at which it takes no charge, and no
other potential of the core would give a smaller one. -/
theorem core_floats (toCore volt : Nat → K) (name : String) (turns : List Turn)
    (hpos : ∀ i, 0 < toCore i) :
    ∃ v, Spec.charge (selfElements toCore volt name turns) v = 0 ∧
      selfCoreEnergy toCore volt name turns = Spec.energy (selfElements toCore volt name turns) v ∧
      ∀ w, selfCoreEnergy toCore volt name turns ≤ Spec.energy (selfElements toCore volt name turns) w := by
  have hp : ∀ p ∈ selfElements toCore volt name turns, 0 < p.1 := by
    intro p hp
    unfold selfElements at hp
    rw [List.mem_filterMap] at hp
    obtain ⟨ti, -, h⟩ := hp
    split at h
    · cases h
    · injection h with h
      rw [← h]
      exact hpos _
  unfold selfCoreEnergy
  generalize selfElements toCore volt name turns = l at *
  simp only [energy_eq, charge_eq]
  by_cases h : sumC l ≤ 0
  · have hl : l = [] := by
      cases l with
      | nil => rfl
      | cons p l =>
        rw [sumC_cons] at h
        have h1 := hp p (by simp)
        have h2 := sumC_nonneg (l := l) fun q hq => le_of_lt (hp q (by simp [hq]))
        linarith
    subst hl
    exact ⟨0, by simp [sumCV, sumC], by simp [coreEnergyAt], fun w => by simp [coreEnergyAt, sumC]⟩
  · rw [if_neg h]
    push Not at h
    have h0 : sumCV l - sumC l * corePotential l = 0 := by
      unfold corePotential
      field_simp
      ring
    refine ⟨corePotential l, h0, rfl, ?_⟩
    intro w
    rw [coreEnergyAt_move l (corePotential l) w, h0]
    have : 0 ≤ sumC l * (w - corePotential l) ^ 2 := by positivity
    linarith

/-- Bounds of the range used for the terminals. -/
theorem through_range {l : List (K × K)} {hi lo : K}
    (hhi : maxOf ((l.map Prod.snd).filter (fun v => 0 ≤ v)) = some hi)
    (hlo : minOf ((l.map Prod.snd).filter (fun v => ¬ 0 ≤ v)) = some lo) :
    0 ≤ hi ∧ lo < 0 ∧ ∀ p ∈ l, lo ≤ p.2 ∧ p.2 ≤ hi := by
  rw [maxOf_eq_some] at hhi
  rw [minOf_eq_some] at hlo
  simp only [List.mem_filter, decide_eq_true_eq] at hhi hlo
  have h1 := hhi.1.2
  have h2 : lo < 0 := lt_of_not_ge (by simpa using hlo.1.2)
  refine ⟨h1, h2, ?_⟩
  intro p hp
  have hm : p.2 ∈ l.map Prod.snd := List.mem_map_of_mem hp
  by_cases h : 0 ≤ p.2
  · exact ⟨by linarith, hhi.2 _ ⟨hm, h⟩⟩
  · refine ⟨hlo.2 _ ⟨hm, by simpa using h⟩, ?_⟩
    push Not at h
    linarith

/-- C143: the capacitance between two windings through the core is not negative, and no more than a fourth of what all their
turns have to the core. -/
theorem through_core_le (toCore volt : Nat → K) (first second : String) (turns : List Turn)
    (hpos : ∀ i, 0 ≤ toCore i) :
    0 ≤ throughCore toCore volt first second turns ∧
      throughCore toCore volt first second turns ≤ Spec.total (Spec.elements toCore volt first second turns) / 4 := by
  have hp : ∀ p ∈ Spec.elements toCore volt first second turns, 0 ≤ p.1 := by
    intro p hp
    unfold Spec.elements at hp
    rw [List.mem_map] at hp
    obtain ⟨ti, -, h⟩ := hp
    rw [← h]
    exact hpos _
  unfold throughCore
  rw [elements_eq, total_eq]
  generalize Spec.elements toCore volt first second turns = l at *
  have hs := sumC_nonneg hp
  unfold throughOf
  by_cases h : sumC l ≤ 0
  · rw [if_pos h]
    constructor <;> linarith
  rw [if_neg h]
  push Not at h
  cases hhi : maxOf ((l.map Prod.snd).filter (fun v => 0 ≤ v)) with
  | none => simp only []; constructor <;> linarith
  | some hi =>
    cases hlo : minOf ((l.map Prod.snd).filter (fun v => ¬ 0 ≤ v)) with
    | none => simp only []; constructor <;> linarith
    | some lo =>
      simp only []
      obtain ⟨r1, r2, r3⟩ := through_range hhi hlo
      have hd : 0 < hi - lo := by linarith
      rw [if_neg (by linarith)]
      refine ⟨div_nonneg (by have := coreEnergyAt_nonneg hp (corePotential l); linarith) (by positivity), ?_⟩
      rw [div_le_iff₀ (by positivity)]
      have h0 : sumCV l - sumC l * corePotential l = 0 := by
        unfold corePotential
        field_simp
        ring
      have h1 := coreEnergyAt_move l (corePotential l) ((hi + lo) / 2)
      rw [h0] at h1
      have h2 : coreEnergyAt l ((hi + lo) / 2) ≤ 1 / 2 * sumC l * ((hi - lo) / 2) ^ 2 := by
        apply coreEnergyAt_le hp
        intro p hp'
        obtain ⟨a, b⟩ := r3 p hp'
        have : |p.2 - (hi + lo) / 2| ≤ (hi - lo) / 2 := by
          rw [abs_le]
          constructor <;> linarith
        exact sq_le_sq' (by have := (abs_le.mp this).1; linarith) (abs_le.mp this).2
      have h3 : 0 ≤ 1 / 2 * sumC l * ((hi + lo) / 2 - corePotential l) ^ 2 := by positivity
      nlinarith

/-- The turns of two windings have the elements of both. -/
theorem total_elements (toCore volt : Nat → K) {first second : String} (hne : first ≠ second) (turns : List Turn) :
    Spec.total (Spec.elements toCore volt first second turns) =
      Spec.toTheCore toCore first turns + Spec.toTheCore toCore second turns := by
  unfold Spec.total Spec.elements Spec.toTheCore
  induction turns.zipIdx with
  | nil => simp
  | cons ti l ih =>
    by_cases h1 : ti.1.winding = first
    · simp only [h1, List.filter_cons, decide_true, Bool.true_or, true_or, if_true, List.map_cons, List.sum_cons,
        if_neg hne, zero_add, decide_eq_true_eq]
      rw [ih]
      ring
    · by_cases h2 : ti.1.winding = second
      · simp only [h2, List.filter_cons, decide_true, or_true, if_true, List.map_cons, List.sum_cons,
          if_neg (Ne.symm hne), zero_add]
        rw [ih]
        ring
      · simp only [List.filter_cons, h1, h2, or_self, decide_false, List.map_cons, List.sum_cons, if_false, zero_add]
        simpa using ih

/-- C143: what `calculate_winding_to_core_capacitance` gives is the sum over the turns of the winding. -/
theorem winding_to_core_sum (toCore : Nat → K) (name : String) (turns : List Turn) :
    windingToCore toCore name turns = Spec.toTheCore toCore name turns := by
  unfold windingToCore Spec.toTheCore
  induction turns.zipIdx with
  | nil => rfl
  | cons ti l ih =>
    rw [List.filter_cons]
    by_cases h : ti.1.winding = name
    · simp only [h, decide_true, if_true, List.map_cons, List.sum_cons, ih]
    · simp only [h, decide_false, List.map_cons, List.sum_cons, if_false, zero_add]
      simpa using ih

/-- C143: in terms of windings: a fourth of the capacitances of both windings to the core. -/
theorem through_core_le_windings (toCore volt : Nat → K) {first second : String} (hne : first ≠ second) (turns : List Turn)
    (hpos : ∀ i, 0 ≤ toCore i) :
    throughCore toCore volt first second turns ≤
      (windingToCore toCore first turns + windingToCore toCore second turns) / 4 := by
  have := (through_core_le toCore volt first second turns hpos).2
  rwa [total_elements toCore volt hne, ← winding_to_core_sum, ← winding_to_core_sum] at this

example : ∀ i : Nat, (0 : ℚ) ≤ (fun _ => 1 : Nat → ℚ) i := fun _ => by norm_num

/-! ## What does not change it -/

theorem filter_scaled {s : K} (hs : 0 < s) (l : List K) :
    ((l.map (s * ·)).filter (fun v => 0 ≤ v) = (l.filter (fun v => 0 ≤ v)).map (s * ·)) ∧
      ((l.map (s * ·)).filter (fun v => ¬ 0 ≤ v) = (l.filter (fun v => ¬ 0 ≤ v)).map (s * ·)) := by
  have h : ∀ v : K, 0 ≤ s * v ↔ 0 ≤ v := fun v => mul_nonneg_iff_of_pos_left hs
  rw [List.filter_map, List.filter_map]
  constructor <;> congr 1 <;> apply List.filter_congr <;> intro v _ <;> simp only [Function.comp, h v]

theorem maxOf_scaled {s : K} (hs : 0 < s) (l : List K) : maxOf (l.map (s * ·)) = (maxOf l).map (s * ·) := by
  cases h : maxOf l with
  | none => rw [maxOf_eq_none] at h; simp [h, maxOf]
  | some m =>
    rw [maxOf_eq_some] at h
    rw [Option.map_some, maxOf_eq_some]
    refine ⟨List.mem_map_of_mem h.1, ?_⟩
    intro y hy
    obtain ⟨x, hx, rfl⟩ := List.mem_map.mp hy
    exact mul_le_mul_of_nonneg_left (h.2 x hx) (le_of_lt hs)

theorem minOf_scaled {s : K} (hs : 0 < s) (l : List K) : minOf (l.map (s * ·)) = (minOf l).map (s * ·) := by
  cases h : minOf l with
  | none => rw [minOf_eq_none] at h; simp [h, minOf]
  | some m =>
    rw [minOf_eq_some] at h
    rw [Option.map_some, minOf_eq_some]
    refine ⟨List.mem_map_of_mem h.1, ?_⟩
    intro y hy
    obtain ⟨x, hx, rfl⟩ := List.mem_map.mp hy
    exact mul_le_mul_of_nonneg_left (h.2 x hx) (le_of_lt hs)

theorem coreEnergyAt_scaled (s : K) (l : List (K × K)) (v : K) :
    coreEnergyAt (l.map fun p => (p.1, s * p.2)) (s * v) = s ^ 2 * coreEnergyAt l v := by
  induction l with
  | nil => simp [coreEnergyAt]
  | cons p l ih =>
    rw [List.map_cons, coreEnergyAt_cons, coreEnergyAt_cons, ih]
    ring

theorem sumC_scaled (s : K) (l : List (K × K)) : sumC (l.map fun p => (p.1, s * p.2)) = sumC l := by
  simp [sumC, Function.comp_def]

theorem sumCV_scaled (s : K) (l : List (K × K)) : sumCV (l.map fun p => (p.1, s * p.2)) = s * sumCV l := by
  induction l with
  | nil => simp [sumCV]
  | cons p l ih => rw [List.map_cons, sumCV_cons, sumCV_cons, ih]; ring

theorem throughOf_scaled {s : K} (hs : 0 < s) (l : List (K × K)) :
    throughOf (l.map fun p => (p.1, s * p.2)) = throughOf l := by
  have h1 : (l.map fun p => (p.1, s * p.2)).map Prod.snd = (l.map Prod.snd).map (s * ·) := by
    simp [Function.comp_def]
  unfold throughOf
  rw [sumC_scaled, h1, (filter_scaled hs _).1, (filter_scaled hs _).2, maxOf_scaled hs, minOf_scaled hs]
  by_cases h : sumC l ≤ 0
  · rw [if_pos h, if_pos h]
  rw [if_neg h, if_neg h]
  cases maxOf ((l.map Prod.snd).filter (fun v => 0 ≤ v)) with
  | none => rfl
  | some hi =>
    cases minOf ((l.map Prod.snd).filter (fun v => ¬ 0 ≤ v)) with
    | none => rfl
    | some lo =>
      simp only [Option.map_some]
      have h2 : s * hi - s * lo = s * (hi - lo) := by ring
      have h3 : corePotential (l.map fun p => (p.1, s * p.2)) = s * corePotential l := by
        unfold corePotential
        rw [sumC_scaled, sumCV_scaled, mul_div_assoc]
      rw [h2, h3, coreEnergyAt_scaled]
      by_cases h4 : hi - lo ≤ 0
      · rw [if_pos h4, if_pos (by nlinarith)]
      · have h5 : 0 < hi - lo := by linarith
        rw [if_neg h4, if_neg (by have := mul_pos hs h5; linarith)]
        have := ne_of_gt hs
        have := ne_of_gt h5
        field_simp

/-- C143: the capacitance through the core does not depend on the scale of the voltages. -/
theorem through_core_scaled {s : K} (hs : 0 < s) (toCore volt : Nat → K) (first second : String) (turns : List Turn) :
    throughCore toCore (fun i => s * volt i) first second turns = throughCore toCore volt first second turns := by
  unfold throughCore
  rw [elements_eq, elements_eq, ← throughOf_scaled hs (Spec.elements toCore volt first second turns)]
  congr 1
  unfold Spec.elements
  rw [List.map_map]
  apply List.map_congr_left
  intro ti _
  simp only [Function.comp]
  split <;> simp

/-! ## Order of the windings -/

theorem coreEnergyAt_neg (l : List (K × K)) (v : K) :
    coreEnergyAt (l.map fun p => (p.1, -p.2)) (-v) = coreEnergyAt l v := by
  induction l with
  | nil => simp [coreEnergyAt]
  | cons p l ih =>
    rw [List.map_cons, coreEnergyAt_cons, coreEnergyAt_cons, ih]
    ring

/-- With potentials of both signs, the range is that of all potentials. -/
theorem throughOf_of_range {l : List (K × K)} (hC : 0 < sumC l) {hi lo : K} (h1 : hi ∈ l.map Prod.snd) (h2 : lo ∈ l.map Prod.snd)
    (h3 : 0 ≤ hi) (h4 : lo < 0) (h5 : ∀ v ∈ l.map Prod.snd, lo ≤ v ∧ v ≤ hi) :
    throughOf l = 2 * coreEnergyAt l (corePotential l) / ((hi - lo) * (hi - lo)) := by
  have e1 : maxOf ((l.map Prod.snd).filter (fun v => 0 ≤ v)) = some hi := by
    rw [maxOf_eq_some]
    refine ⟨List.mem_filter.mpr ⟨h1, by simpa using h3⟩, ?_⟩
    intro y hy
    exact (h5 y (List.mem_filter.mp hy).1).2
  have e2 : minOf ((l.map Prod.snd).filter (fun v => ¬ 0 ≤ v)) = some lo := by
    rw [minOf_eq_some]
    refine ⟨List.mem_filter.mpr ⟨h2, by simpa using h4⟩, ?_⟩
    intro y hy
    exact (h5 y (List.mem_filter.mp hy).1).1
  unfold throughOf
  rw [if_neg (not_le.mpr hC), e1, e2]
  simp only []
  rw [if_neg (by linarith)]

theorem exists_max {l : List K} (h : l ≠ []) : ∃ m ∈ l, ∀ y ∈ l, y ≤ m := by
  cases hm : maxOf l with
  | none => exact absurd (maxOf_eq_none.mp hm) h
  | some m => exact ⟨m, maxOf_eq_some.mp hm⟩

theorem exists_min {l : List K} (h : l ≠ []) : ∃ m ∈ l, ∀ y ∈ l, m ≤ y := by
  cases hm : minOf l with
  | none => exact absurd (minOf_eq_none.mp hm) h
  | some m => exact ⟨m, minOf_eq_some.mp hm⟩

/-- C143: if each of both windings has a turn with a voltage, the capacitance through the core does not depend on which of them is
named first. -/
theorem through_core_swap_partial (toCore volt : Nat → K) {first second : String} (hne : first ≠ second) (turns : List Turn)
    (hv : ∀ i, 0 ≤ volt i) {i j : Nat} {t u : Turn} (hi : turns[i]? = some t) (ht : t.winding = first) (hvi : 0 < volt i)
    (hj : turns[j]? = some u) (hu : u.winding = second) (hvj : 0 < volt j) :
    throughCore toCore volt first second turns = throughCore toCore volt second first turns := by
  have hneg : Spec.elements toCore volt second first turns =
      (Spec.elements toCore volt first second turns).map fun p => (p.1, -p.2) := by
    unfold Spec.elements
    rw [List.map_map]
    have : (turns.zipIdx.filter fun ti => ti.1.winding = second ∨ ti.1.winding = first) =
        (turns.zipIdx.filter fun ti => ti.1.winding = first ∨ ti.1.winding = second) := by
      apply List.filter_congr
      intro ti _
      simp [Bool.or_comm]
    rw [this]
    apply List.map_congr_left
    intro ti hti
    have h := (List.mem_filter.mp hti).2
    simp only [decide_eq_true_eq] at h
    simp only [Function.comp]
    rcases h with h | h
    · rw [if_pos h, if_neg (by rw [h]; exact hne)]
    · rw [if_pos h, if_neg (by rw [h]; exact Ne.symm hne), neg_neg]
  have hmem : ∀ (k : Nat) (x : Turn), turns[k]? = some x → (x, k) ∈ turns.zipIdx := by
    intro k x hx
    rw [List.mem_zipIdx_iff_getElem?]
    simpa using hx
  have m1 : volt i ∈ (Spec.elements toCore volt first second turns).map Prod.snd := by
    rw [List.mem_map]
    refine ⟨(toCore i, volt i), ?_, rfl⟩
    rw [Spec.elements, List.mem_map]
    exact ⟨(t, i), List.mem_filter.mpr ⟨hmem i t hi, by simp [ht]⟩, by simp [ht]⟩
  have m2 : -volt j ∈ (Spec.elements toCore volt first second turns).map Prod.snd := by
    rw [List.mem_map]
    refine ⟨(toCore j, -volt j), ?_, rfl⟩
    rw [Spec.elements, List.mem_map]
    refine ⟨(u, j), List.mem_filter.mpr ⟨hmem j u hj, by simp [hu]⟩, ?_⟩
    simp only []
    rw [if_neg (by rw [hu]; exact Ne.symm hne)]
  unfold throughCore
  rw [elements_eq, elements_eq, hneg]
  generalize Spec.elements toCore volt first second turns = l at *
  have hnil : l.map Prod.snd ≠ [] := by
    intro h
    rw [h] at m1
    cases m1
  by_cases hC : 0 < sumC l
  · obtain ⟨hi', a1, a2⟩ := exists_max hnil
    obtain ⟨lo', b1, b2⟩ := exists_min hnil
    have a3 : 0 < hi' := lt_of_lt_of_le hvi (a2 _ m1)
    have b3 : lo' < 0 := lt_of_le_of_lt (b2 _ m2) (by linarith)
    have hC' : sumC (l.map fun p => (p.1, -p.2)) = sumC l := by simp [sumC, Function.comp_def]
    have hCV' : sumCV (l.map fun p => (p.1, -p.2)) = -sumCV l := by
      have := sumCV_scaled (-1) l
      simpa using this
    rw [throughOf_of_range hC a1 b1 (le_of_lt a3) b3 (fun v hv => ⟨b2 v hv, a2 v hv⟩)]
    have hm : (l.map fun p => (p.1, -p.2)).map Prod.snd = (l.map Prod.snd).map (- ·) := by simp [Function.comp_def]
    rw [throughOf_of_range (hi := -lo') (lo := -hi') (by rw [hC']; exact hC) (by rw [hm]; exact List.mem_map_of_mem b1)
      (by rw [hm]; exact List.mem_map_of_mem a1) (by linarith) (by linarith) ?_]
    · have : corePotential (l.map fun p => (p.1, -p.2)) = -corePotential l := by
        unfold corePotential
        rw [hC', hCV', neg_div]
      rw [this, coreEnergyAt_neg]
      congr 1
      ring
    · rw [hm]
      intro v hv
      obtain ⟨x, hx, rfl⟩ := List.mem_map.mp hv
      exact ⟨neg_le_neg (a2 x hx), neg_le_neg (b2 x hx)⟩
  · have hC' : sumC (l.map fun p => (p.1, -p.2)) = sumC l := by simp [sumC, Function.comp_def]
    unfold throughOf
    rw [hC', if_pos (not_lt.mp hC), if_pos (not_lt.mp hC)]

/-- C143: but a winding without voltage counts only if it is named first: as the second of the two, no capacitance is found. -/
theorem through_core_depends_on_order :
    ∃ (toCore volt : Nat → ℚ) (turns : List Turn),
      (∀ i, 0 < toCore i) ∧ (∀ i, 0 ≤ volt i) ∧ turns = [⟨"a", 0⟩, ⟨"b", 0⟩] ∧
      throughCore toCore volt "a" "b" turns = 0 ∧ throughCore toCore volt "b" "a" turns = 1 / 2 := by
  refine ⟨fun _ => 1, fun i => if i = 0 then 1 else 0, [⟨"a", 0⟩, ⟨"b", 0⟩], ?_, ?_, rfl, ?_, ?_⟩
  · intro i; norm_num
  · intro i; simp only []; split <;> norm_num
  · decide +kernel
  · decide +kernel

/-- C143: if all the turns of a winding are at one voltage, and all those of the other one too, the capacitance is that of both
capacitances to the core in series. -/
theorem through_core_uniform (toCore volt : Nat → K) {first second : String} (hne : first ≠ second) (turns : List Turn)
    (hpos : ∀ i, 0 < toCore i) {v1 v2 : K} (h1 : 0 ≤ v1) (h2 : 0 < v2)
    (hv1 : ∀ i t, turns[i]? = some t → t.winding = first → volt i = v1)
    (hv2 : ∀ i t, turns[i]? = some t → t.winding = second → volt i = v2)
    (hex1 : ∃ t ∈ turns, t.winding = first) (hex2 : ∃ t ∈ turns, t.winding = second) :
    throughCore toCore volt first second turns =
      windingToCore toCore first turns * windingToCore toCore second turns /
        (windingToCore toCore first turns + windingToCore toCore second turns) := by
  have hpot : ∀ ti ∈ turns.zipIdx, turns[ti.2]? = some ti.1 := by
    intro ti hti
    obtain ⟨t, k⟩ := ti
    simpa [List.mem_zipIdx_iff_getElem?] using hti
  -- the sums over the elements
  have key : ∀ (l : List (Turn × Nat)), (∀ ti ∈ l, turns[ti.2]? = some ti.1) →
      let e := (l.filter fun ti => ti.1.winding = first ∨ ti.1.winding = second).map fun ti =>
        (toCore ti.2, if ti.1.winding = first then volt ti.2 else -volt ti.2)
      let a := (l.map fun ti => if ti.1.winding = first then toCore ti.2 else 0).sum
      let b := (l.map fun ti => if ti.1.winding = second then toCore ti.2 else 0).sum
      sumC e = a + b ∧ sumCV e = a * v1 - b * v2 ∧
        (∀ v, coreEnergyAt e v = 1 / 2 * a * (v1 - v) ^ 2 + 1 / 2 * b * (-v2 - v) ^ 2) ∧
        (∀ x ∈ e.map Prod.snd, x = v1 ∨ x = -v2) ∧
        ((∃ ti ∈ l, ti.1.winding = first) → 0 < a ∧ v1 ∈ e.map Prod.snd) ∧
        ((∃ ti ∈ l, ti.1.winding = second) → 0 < b ∧ -v2 ∈ e.map Prod.snd) ∧ 0 ≤ a ∧ 0 ≤ b := by
    intro l hl
    induction l with
    | nil => simp [sumC, sumCV, coreEnergyAt]
    | cons ti l ih =>
      have ih := ih fun x hx => hl x (by simp [hx])
      obtain ⟨i1, i2, i3, i4, i5, i6, i7, i8⟩ := ih
      have hti := hl ti (by simp)
      have hc := hpos ti.2
      by_cases w1 : ti.1.winding = first
      · have w2 : ti.1.winding ≠ second := by rw [w1]; exact hne
        have hvt := hv1 ti.2 ti.1 hti w1
        simp only [List.filter_cons, w1, true_or, decide_true, if_true, List.map_cons, sumC_cons, sumCV_cons, coreEnergyAt_cons,
          List.sum_cons, if_neg hne, zero_add, hvt]
        refine ⟨by rw [i1]; ring, by rw [i2]; ring, fun v => by rw [i3]; ring, ?_, ?_, ?_, by linarith, i8⟩
        · intro x hx
          rcases List.mem_cons.mp hx with rfl | hx
          · left; rfl
          · exact i4 x hx
        · intro _
          exact ⟨by linarith, by simp⟩
        · rintro ⟨tj, htj, w⟩
          rcases List.mem_cons.mp htj with rfl | htj
          · exact absurd w w2
          · obtain ⟨q1, q2⟩ := i6 ⟨tj, htj, w⟩
            exact ⟨q1, List.mem_cons_of_mem _ q2⟩
      · by_cases w2 : ti.1.winding = second
        · have hvt := hv2 ti.2 ti.1 hti w2
          simp only [List.filter_cons, w2, or_true, decide_true, if_true, List.map_cons, sumC_cons, sumCV_cons,
            coreEnergyAt_cons, List.sum_cons, if_neg (Ne.symm hne), zero_add, hvt]
          refine ⟨by rw [i1]; ring, by rw [i2]; ring, fun v => by rw [i3]; ring, ?_, ?_, ?_, i7, by linarith⟩
          · intro x hx
            rcases List.mem_cons.mp hx with rfl | hx
            · right; rfl
            · exact i4 x hx
          · rintro ⟨tj, htj, w⟩
            rcases List.mem_cons.mp htj with rfl | htj
            · exact absurd w w1
            · obtain ⟨q1, q2⟩ := i5 ⟨tj, htj, w⟩
              exact ⟨q1, List.mem_cons_of_mem _ q2⟩
          · intro _
            exact ⟨by linarith, by simp⟩
        · simp only [List.filter_cons, w1, w2, or_self, decide_false, List.map_cons, List.sum_cons, if_false, zero_add]
          refine ⟨i1, i2, i3, i4, ?_, ?_, i7, i8⟩
          · rintro ⟨tj, htj, w⟩
            rcases List.mem_cons.mp htj with rfl | htj
            · exact absurd w w1
            · exact i5 ⟨tj, htj, w⟩
          · rintro ⟨tj, htj, w⟩
            rcases List.mem_cons.mp htj with rfl | htj
            · exact absurd w w2
            · exact i6 ⟨tj, htj, w⟩
  have toZip : ∀ name, (∃ t ∈ turns, t.winding = name) → ∃ ti ∈ turns.zipIdx, ti.1.winding = name := by
    rintro name ⟨t, ht, hw⟩
    obtain ⟨k, hk, hk2⟩ := List.mem_iff_getElem.mp ht
    refine ⟨(t, k), ?_, hw⟩
    rw [List.mem_zipIdx_iff_getElem?]
    simp [← hk2, hk]
  obtain ⟨k1, k2, k3, k4, k5, k6, -, -⟩ := key turns.zipIdx hpot
  obtain ⟨a1, a2⟩ := k5 (toZip first hex1)
  obtain ⟨b1, b2⟩ := k6 (toZip second hex2)
  rw [winding_to_core_sum, winding_to_core_sum]
  unfold throughCore
  rw [elements_eq]
  unfold Spec.elements Spec.toTheCore
  generalize ((turns.zipIdx.filter fun ti => ti.1.winding = first ∨ ti.1.winding = second).map fun ti =>
    (toCore ti.2, if ti.1.winding = first then volt ti.2 else -volt ti.2)) = e at *
  generalize (turns.zipIdx.map fun ti => if ti.1.winding = first then toCore ti.2 else 0).sum = a at *
  generalize (turns.zipIdx.map fun ti => if ti.1.winding = second then toCore ti.2 else 0).sum = b at *
  rw [throughOf_of_range (by rw [k1]; linarith) a2 b2 h1 (by linarith) ?_]
  · have hab : a + b ≠ 0 := by linarith
    have hv : v1 - -v2 ≠ 0 := by linarith
    have hv' : v1 + v2 ≠ 0 := by linarith
    rw [k3, corePotential, k1, k2, sub_neg_eq_add]
    field_simp
    ring
  · intro v hv
    rcases k4 v hv with rfl | rfl <;> constructor <;> linarith

end Verif.StrayCapacitance
