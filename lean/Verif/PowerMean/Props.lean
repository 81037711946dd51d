import Mathlib.Tactic.Linarith
import Mathlib.Tactic.NormNum
import Mathlib.Algebra.BigOperators.Group.List.Basic
import Mathlib.Algebra.Order.Ring.Rat
import Verif.PowerMean.Model

/-! # Properties of the power by which the budget of losses is set -/

set_option linter.unusedSimpArgs false
set_option linter.unusedVariables false
set_option linter.unusedSectionVars false

namespace Verif.PowerMean

open Verif.Filters Verif.Scoring

variable {K : Type} [Field K] [LinearOrder K] [IsStrictOrderedRing K]

/-- Spec: the sampling gives as many points as asked for. -/
def Exact (sample : Wave K → Nat → List K) : Prop := ∀ w n, (sample w n).length = n

/-- Spec: the data of a point that are multiplied: as given if they are as many, and otherwise both with as many points as the
longer one. -/
inductive Data (sample : Wave K → Nat → List K) : Point K → List K → List K → Prop
  | given (v i : Wave K) (h : v.data.length = i.data.length) : Data sample ⟨some v, some i⟩ v.data i.data
  | sampled (v i : Wave K) (n : Nat) (h : v.data.length ≠ i.data.length) (hn : n = v.data.length ∨ n = i.data.length)
      (hv : v.data.length ≤ n) (hi : i.data.length ≤ n) : Data sample ⟨some v, some i⟩ (sample v n) (sample i n)

/-- Spec: a point with data, and the mean of the products of its data. -/
def HasMean (sample : Wave K → Nat → List K) (p : Point K) (m : K) : Prop :=
  ∃ v i, Data sample p v i ∧ v ≠ [] ∧ m * v.length = (v.zipWith (fun x y => |x * y|) i).sum

/-- Spec: a point whose current has more than twice the points of the setting. -/
def Large (sample : Wave K → Nat → List K) (points : Nat) (p : Point K) : Prop := ∃ v i, Data sample p v i ∧ 2 * points < i.length

theorem alike_spec (sample : Wave K → Nat → List K) (h : Exact sample) (p : Point K) :
    (alike sample p = .throws ↔ p.voltage = none ∨ p.current = none) ∧ alike sample p ≠ .undefined ∧
    (∀ d, alike sample p = .value d ↔ Data sample p d.1 d.2) ∧ ∀ d, alike sample p = .value d → d.1.length = d.2.length := by
  obtain ⟨v, i⟩ := p
  cases v with
  | none =>
    refine ⟨by simp [alike], by simp [alike], fun d => ⟨by simp [alike], fun hd => by cases hd⟩, by simp [alike]⟩
  | some v =>
    cases i with
    | none => refine ⟨by simp [alike], by simp [alike], fun d => ⟨by simp [alike], fun hd => by cases hd⟩, by simp [alike]⟩
    | some i =>
      by_cases hl : v.data.length = i.data.length
      · refine ⟨by simp [alike, hl], by simp [alike, hl], fun d => ⟨fun hd => ?_, fun hd => ?_⟩, fun d hd => ?_⟩
        · obtain rfl : (v.data, i.data) = d := by simpa [alike, hl] using hd
          exact .given v i hl
        · obtain ⟨d1, d2⟩ := d
          cases hd with
          | given _ _ _ => simp [alike, hl]
          | sampled _ _ n h _ _ _ => exact absurd hl h
        · obtain rfl : (v.data, i.data) = d := by simpa [alike, hl] using hd
          exact hl
      · have e : alike sample ⟨some v, some i⟩ = .value (sample v (max v.data.length i.data.length), sample i (max v.data.length i.data.length)) := by
          simp only [alike, ne_eq, hl, not_false_eq_true, if_true]
          rw [h v, max_eq_left (le_max_right _ _)]
        refine ⟨by simp [e], by simp [e], fun d => ⟨fun hd => ?_, fun hd => ?_⟩, fun d hd => ?_⟩
        · rw [e] at hd
          obtain rfl : (sample v (max v.data.length i.data.length), sample i (max v.data.length i.data.length)) = d := by simpa using hd
          exact .sampled v i _ hl (max_choice _ _) (le_max_left _ _) (le_max_right _ _)
        · obtain ⟨d1, d2⟩ := d
          cases hd with
          | given _ _ h => exact absurd h hl
          | sampled _ _ n h hn hv hi =>
            have : n = max v.data.length i.data.length := by
              rcases hn with rfl | rfl
              · exact (max_eq_left hi).symm
              · exact (max_eq_right hv).symm
            rw [e, this]
        · rw [e] at hd
          obtain rfl : (sample v (max v.data.length i.data.length), sample i (max v.data.length i.data.length)) = d := by simpa using hd
          rw [h, h]

/-- Spec: the points have these means, one each. -/
def Means (sample : Wave K → Nat → List K) (ps : List (Point K)) (ms : List K) : Prop := List.Forall₂ (HasMean sample) ps ms

theorem means_value (sample : Wave K → Nat → List K) (h : Exact sample) (points : Nat) (ps : List (Point K)) (ms : List K)
    (hm : Means sample ps ms) (large : Bool) :
    ∃ b, means sample points ps large = .value (ms.map Num.fin, b) ∧ (b = true ↔ large = true ∨ ∃ p ∈ ps, Large sample points p) := by
  induction hm generalizing large with
  | nil => exact ⟨large, rfl, by simp⟩
  | @cons p m ps ms hp _ ih =>
    obtain ⟨v, i, hd, hne, hmean⟩ := hp
    obtain ⟨_, _, a3, a4⟩ := alike_spec sample h p
    have hval := (a3 (v, i)).2 hd
    have hlen := a4 _ hval
    simp only at hlen
    have hv0 : v.length ≠ 0 := by simpa using hne
    have hpos : (v.length : K) ≠ 0 := by exact_mod_cast hv0
    have hmo : meanOf v i = .value (.fin m) := by
      unfold meanOf
      rw [if_neg (by omega), if_neg hv0, ← hmean, mul_div_assoc, div_self hpos, mul_one]
    have hlarge : Large sample points p ↔ points * 2 < i.length := by
      constructor
      · rintro ⟨v', i', hd', hl⟩
        have hval' := (a3 (v', i')).2 hd'
        rw [hval] at hval'
        obtain ⟨rfl, rfl⟩ : v = v' ∧ i = i' := by simpa using hval'
        omega
      · intro hl
        exact ⟨v, i, hd, by omega⟩
    obtain ⟨b, hb, hbi⟩ := ih (if points * 2 < i.length then true else large)
    refine ⟨b, ?_, ?_⟩
    · simp only [means, hval, Outcome.bind, hmo, hb, List.map_cons]
    · rw [hbi]
      by_cases hl : points * 2 < i.length
      · simp [hl, hlarge.2 hl]
      · have : ¬ Large sample points p := fun x => hl (hlarge.1 x)
        simp [hl, this]

theorem maxElement_fin (x : K) (l : List K) :
    ∃ m, maxElement (.fin x) (l.map Num.fin) = .fin m ∧ m ∈ x :: l ∧ ∀ y ∈ x :: l, y ≤ m := by
  induction l generalizing x with
  | nil => exact ⟨x, rfl, by simp, by simp⟩
  | cons a l ih =>
    by_cases h : x < a
    · obtain ⟨m, h1, h2, h3⟩ := ih a
      refine ⟨m, by simp [maxElement, Num.ltB, h, h1], List.mem_cons_of_mem _ h2, fun y hy => ?_⟩
      rcases List.mem_cons.1 hy with rfl | hy
      · exact h.le.trans (h3 a (by simp))
      · exact h3 y hy
    · obtain ⟨m, h1, h2, h3⟩ := ih x
      refine ⟨m, by simp [maxElement, Num.ltB, h, h1], ?_, fun y hy => ?_⟩
      · rcases List.mem_cons.1 h2 with rfl | h2
        · simp
        · exact List.mem_cons_of_mem _ (List.mem_cons_of_mem _ h2)
      · rcases List.mem_cons.1 hy with rfl | hy
        · exact h3 y (by simp)
        · rcases List.mem_cons.1 hy with rfl | hy
          · exact (not_lt.1 h).trans (h3 x (by simp))
          · exact h3 y (List.mem_cons_of_mem _ hy)

/-- **C424.** The power is the largest over the operating points of the mean of the products of voltage and current, and the losses
are changed to those of Steinmetz exactly when a current has more than twice the points of the setting. -/
theorem largest_mean (sample : Wave K → Nat → List K) (h : Exact sample) (points : Nat) (ps : List (Point K)) (ms : List K)
    (hm : Means sample ps ms) (hne : ps ≠ []) :
    ∃ m b, maximum sample points ps = .value (.fin m, b) ∧ m ∈ ms ∧ (∀ x ∈ ms, x ≤ m) ∧
      (b = true ↔ ∃ p ∈ ps, Large sample points p) := by
  obtain ⟨b, hb, hbi⟩ := means_value sample h points ps ms hm false
  cases ms with
  | nil =>
    cases hm
    exact absurd rfl hne
  | cons x l =>
    obtain ⟨m, h1, h2, h3⟩ := maxElement_fin x l
    refine ⟨m, b, ?_, h2, h3, by simpa using hbi⟩
    simp only [maximum, hb, Outcome.bind, List.map_cons, h1]

/-- **C424.** It is refused, as long as the other points before have data, by a point without voltage or without current; without points
the end of an empty vector is read. -/
theorem power_missing (sample : Wave K → Nat → List K) (h : Exact sample) (points : Nat) (before after : List (Point K)) (p : Point K)
    (ms : List K) (hm : Means sample before ms) (hp : p.voltage = none ∨ p.current = none) :
    maximum sample points (before ++ p :: after) = .throws ∧ maximum sample points [] = .undefined := by
  refine ⟨?_, rfl⟩
  have key : ∀ (before : List (Point K)) (ms : List K) (large : Bool), Means sample before ms →
      means sample points (before ++ p :: after) large = .throws := by
    intro before ms large hm
    induction hm generalizing large with
    | nil =>
      have := (alike_spec sample h p).1.2 hp
      simp [means, this, Outcome.bind]
    | @cons q m qs ms hq _ ih =>
      obtain ⟨v, i, hd, hne, hmean⟩ := hq
      obtain ⟨_, _, a3, a4⟩ := alike_spec sample h q
      have hval := (a3 (v, i)).2 hd
      have hlen := a4 _ hval
      simp only at hlen
      have hv0 : v.length ≠ 0 := by simpa using hne
      simp only [List.cons_append, means, hval, Outcome.bind, meanOf]
      rw [if_neg (by omega), if_neg hv0]
      simp only [ih]
  simp [maximum, key before ms false hm, Outcome.bind]

/-- Spec: the mean over time of a power that is a line between its points. -/
def timeMean (times power : List ℚ) : ℚ :=
  ((times.zip power).zipWith (fun a b => (b.1 - a.1) * (a.2 + b.2) / 2) (times.zip power).tail).sum /
    (times.getLast?.getD 0 - times.head?.getD 0)

/-- Nine tenths of the period on and the rest off. -/
def pulse : Wave ℚ := ⟨[0, 9, 9, 10], [1, 1, 0, 0]⟩

/-- **C425.** Voltage and current with as many points are not sampled, and their mean is over the points and not over time: one that is
on nine tenths of the time counts as one half. -/
theorem not_over_time (sample : Wave ℚ → Nat → List ℚ) :
    maximum sample 100 [⟨some pulse, some pulse⟩] = .value (.fin (1 / 2), false) ∧
      timeMean pulse.times [1, 1, 0, 0] = 9 / 10 := by
  constructor
  · simp [maximum, means, alike, meanOf, pulse, Outcome.bind, maxElement]
    norm_num
  · decide +kernel

theorem sum_bounds (a b : K) : ∀ l : List K, (∀ x ∈ l, a ≤ x ∧ x ≤ b) → l.length * a ≤ l.sum ∧ l.sum ≤ l.length * b
  | [], _ => by simp
  | x :: l, h => by
    obtain ⟨h1, h2⟩ := h x (by simp)
    obtain ⟨h3, h4⟩ := sum_bounds a b l fun y hy => h y (by simp [hy])
    simp only [List.sum_cons, List.length_cons, Nat.cast_add, Nat.cast_one, add_mul, one_mul]
    exact ⟨by linarith, by linarith⟩

/-- **C425 (partial).** The mean of a point is between any bounds of the power at its data, so that of a constant power is that power. What
is missing is that it is the mean over time: `not_over_time`. -/
theorem mean_between_partial (sample : Wave K → Nat → List K) (h : Exact sample) (p : Point K) (v i : List K) (hd : Data sample p v i) (m a b : K)
    (hv : v ≠ []) (hm : m * v.length = (v.zipWith (fun x y => |x * y|) i).sum)
    (hb : ∀ x ∈ v.zipWith (fun x y => |x * y|) i, a ≤ x ∧ x ≤ b) : a ≤ m ∧ m ≤ b := by
  have hlen : v.length = i.length := (alike_spec sample h p).2.2.2 (v, i) (((alike_spec sample h p).2.2.1 (v, i)).2 hd)
  obtain ⟨h1, h2⟩ := sum_bounds a b _ hb
  rw [List.length_zipWith, hlen, min_self, ← hlen, ← hm] at h1 h2
  have hp : (0 : K) < v.length := by
    have : 0 < v.length := List.length_pos_of_ne_nil hv
    exact_mod_cast this
  rw [mul_comm] at h1
  rw [mul_comm (v.length : K)] at h2
  exact ⟨le_of_mul_le_mul_right h1 hp, le_of_mul_le_mul_right h2 hp⟩

/-- A sampling of the right length. -/
def flat : Wave ℚ → Nat → List ℚ := fun w n => List.replicate n (w.data.headD 0)

example : Exact flat := fun w n => by simp [flat]
example : Means flat [⟨some pulse, some pulse⟩, ⟨some pulse, some ⟨[0, 10], [2, 2]⟩⟩] [1 / 2, 2] := by
  refine .cons ⟨_, _, .given pulse pulse rfl, by simp [pulse], by norm_num [pulse]⟩
    (.cons ⟨_, _, .sampled pulse ⟨[0, 10], [2, 2]⟩ 4 (by simp [pulse]) (Or.inl rfl) (by simp [pulse]) (by simp), by simp [flat],
      by norm_num [flat, pulse]⟩ .nil)

end Verif.PowerMean
