import Mathlib.Tactic.Linarith
import Mathlib.Tactic.Ring
import Mathlib.Tactic.NormNum
import Verif.Resistivity.Model

/-! # Properties of resistivities -/

set_option linter.unusedSimpArgs false
set_option linter.unusedSectionVars false
set_option linter.unusedVariables false

namespace Verif.Resistivity

variable {K : Type} [Field K] [LinearOrder K] [IsStrictOrderedRing K]

/-! ## Cores -/

/-- Spec: the data are these points. -/
def Given (data : List (Entry K)) (ps : List (K × K)) : Prop := data = ps.map fun p => ⟨some p.1, p.2⟩

/-- Spec: the points that are no nearer than the gap to the last one before them that is. -/
inductive Thinned (gap : K) : Option K → List (K × K) → List (K × K) → Prop where
  | nil (last : Option K) : Thinned gap last [] []
  | keep {last : Option K} {p : K × K} {ps qs : List (K × K)} (h : ∀ b : K, last = some b → gap < |p.1 - b|)
      (rest : Thinned gap (some p.1) ps qs) : Thinned gap last (p :: ps) (p :: qs)
  | drop {b : K} {p : K × K} {ps qs : List (K × K)} (h : |p.1 - b| ≤ gap) (rest : Thinned gap (some b) ps qs) :
      Thinned gap (some b) (p :: ps) qs

theorem kept_thinned (gap : K) (ps : List (K × K)) (last : Option K) :
    ∃ qs, kept gap last (ps.map fun p => ⟨some p.1, p.2⟩) = some qs ∧ Thinned gap last ps qs := by
  induction ps generalizing last with
  | nil => exact ⟨[], rfl, .nil _⟩
  | cons p ps ih =>
    cases last with
    | none =>
      obtain ⟨qs, h1, h2⟩ := ih (some p.1)
      exact ⟨p :: qs, by simp [kept, h1], .keep (by simp) h2⟩
    | some b =>
      by_cases h : gap < |p.1 - b|
      · obtain ⟨qs, h1, h2⟩ := ih (some p.1)
        exact ⟨p :: qs, by simp [kept, h1, h], .keep (by rintro _ ⟨⟩; exact h) h2⟩
      · obtain ⟨qs, h1, h2⟩ := ih (some b)
        exact ⟨qs, by simp [kept, h1, h], .drop (not_lt.mp h) h2⟩

theorem kept_missing (gap : K) (data : List (Entry K)) (last : Option K) :
    kept gap last data = none ↔ ∃ e ∈ data, e.temperature = none := by
  induction data generalizing last with
  | nil => simp [kept]
  | cons e data ih =>
    obtain ⟨t, v⟩ := e
    cases t with
    | none => simp [kept]
    | some t =>
      cases last with
      | none => simp [kept, ih]
      | some b => by_cases h : gap < |t - b| <;> simp [kept, h, ih]

/-- **C403.** The resistivity of a core: refused without data; one value is taken at every temperature; with more, each needs its
temperature, and otherwise it is what the spline through the points that are left is worth. -/
theorem core_resistivity (interp : List (K × K) → K → Option K) (gap : K) (data : List (Entry K)) (t : K) :
    (coreResistivity interp gap data t = .missing ↔ data = []) ∧
      (∀ e : Entry K, data = [e] → coreResistivity interp gap data t = .ok e.value) ∧
      (coreResistivity interp gap data t = .badOptional ↔ 2 ≤ data.length ∧ ∃ e ∈ data, e.temperature = none) ∧
      (∀ ps : List (K × K), Given data ps → 2 ≤ data.length → ∃ qs, Thinned gap none ps qs ∧
        coreResistivity interp gap data t = (match interp qs t with | none => .spline | some v => .ok v)) := by
  rcases data with _ | ⟨e, _ | ⟨f, data⟩⟩
  · refine ⟨by simp [coreResistivity], by simp, by simp [coreResistivity], by simp⟩
  · refine ⟨by simp [coreResistivity], ?_, by simp [coreResistivity], by simp⟩
    intro e' h; injection h with h; simp [coreResistivity, h]
  · have hk := kept_missing gap (e :: f :: data) none
    refine ⟨?_, by simp, ?_, ?_⟩
    · simp only [coreResistivity]
      constructor
      · intro h; split at h
        · cases h
        · split at h <;> cases h
      · intro h; cases h
    · simp only [coreResistivity]
      constructor
      · intro h
        refine ⟨by simp, hk.mp ?_⟩
        split at h
        · assumption
        · split at h <;> cases h
      · rintro ⟨-, h⟩
        rw [hk.mpr h]
    · intro ps hps _
      obtain ⟨qs, h1, h2⟩ := kept_thinned gap ps none
      refine ⟨qs, h2, ?_⟩
      have : kept gap none (e :: f :: data) = some qs := by rw [← h1]; exact congrArg _ hps
      simp only [coreResistivity]
      rw [this]
      cases h : interp qs t <;> simp [h]

/-- Spec: temperatures do not fall. -/
def Rising (ps : List (K × K)) : Prop := ps.Pairwise fun p q => p.1 ≤ q.1

theorem thinned_rises {gap : K} (hg : 0 ≤ gap) {last : Option K} {ps qs : List (K × K)} (h : Thinned gap last ps qs) (hr : Rising ps)
    (hb : ∀ b : K, last = some b → ∀ p ∈ ps, b ≤ p.1) :
    qs.Pairwise (fun p q => p.1 + gap < q.1) ∧ (∀ b : K, last = some b → ∀ q ∈ qs, b + gap < q.1) ∧ ∀ q ∈ qs, q ∈ ps := by
  induction h with
  | nil last => simp
  | @keep last p ps qs hk rest ih =>
    have hr' := List.pairwise_cons.mp hr
    obtain ⟨h1, h2, h3⟩ := ih hr'.2 (by rintro _ ⟨⟩ q hq; exact hr'.1 q hq)
    refine ⟨List.pairwise_cons.mpr ⟨fun q hq => h2 _ rfl q hq, h1⟩, ?_, ?_⟩
    · intro b hbl q hq
      have hp : b + gap < p.1 := by
        have := hk b hbl
        rw [abs_of_nonneg (sub_nonneg.mpr (hb b hbl p (by simp)))] at this
        linarith
      rcases List.mem_cons.mp hq with rfl | hq
      · exact hp
      · linarith [h2 _ rfl q hq]
    · intro q hq
      rcases List.mem_cons.mp hq with rfl | hq
      · simp
      · simp [h3 q hq]
  | @drop b p ps qs hd rest ih =>
    have hr' := List.pairwise_cons.mp hr
    obtain ⟨h1, h2, h3⟩ := ih hr'.2 (by rintro _ ⟨⟩ q hq; exact hb _ rfl q (by simp [hq]))
    exact ⟨h1, by rintro _ ⟨⟩; exact h2 _ rfl, fun q hq => by simp [h3 q hq]⟩

theorem thinned_apart {gap : K} {last : Option K} {ps : List (K × K)} (h : ps.Pairwise fun p q => p.1 + gap < q.1)
    (hb : ∀ b : K, last = some b → ∀ p ∈ ps, b + gap < p.1) {qs : List (K × K)} (ht : Thinned gap last ps qs) : qs = ps := by
  induction ht with
  | nil => rfl
  | @keep last p ps qs hk rest ih =>
    have h' := List.pairwise_cons.mp h
    rw [ih h'.2 (by rintro _ ⟨⟩ q hq; exact h'.1 q hq)]
  | @drop b p ps qs hd rest ih =>
    have := hb b rfl p (by simp)
    have := le_abs_self (p.1 - b)
    linarith

/-- Spec: a spline: through points that rise by more than the gap it is defined and goes through them. -/
def Interpolates (gap : K) (interp : List (K × K) → K → Option K) : Prop :=
  ∀ ps : List (K × K), ps.Pairwise (fun p q => p.1 + gap < q.1) → ∀ p ∈ ps, interp ps p.1 = some p.2

/-- **C404 (partial).** With rising temperatures, the spline gets points of the data whose temperatures rise by more than the gap; if
all of them do, the resistivity at each is the one given. What is missing are data in another order: `falling_data`. -/
theorem core_goes_through_partial {gap : K} (hg : 0 ≤ gap) {interp : List (K × K) → K → Option K} {data : List (Entry K)}
    {ps : List (K × K)} (hd : Given data ps) (hl : 2 ≤ data.length) (hr : Rising ps) :
    (∀ t : K, ∃ qs : List (K × K), qs.Pairwise (fun p q => p.1 + gap < q.1) ∧ (∀ q ∈ qs, q ∈ ps) ∧
        coreResistivity interp gap data t = (match interp qs t with | none => .spline | some v => .ok v)) ∧
      (Interpolates gap interp → ps.Pairwise (fun p q => p.1 + gap < q.1) → ∀ p ∈ ps, coreResistivity interp gap data p.1 = .ok p.2) := by
  constructor
  · intro t
    obtain ⟨qs, h1, h2⟩ := (core_resistivity interp gap data t).2.2.2 ps hd hl
    obtain ⟨r1, -, r3⟩ := thinned_rises hg h1 hr (by simp)
    exact ⟨qs, r1, r3, h2⟩
  · intro hi hp p hm
    obtain ⟨qs, h1, h2⟩ := (core_resistivity interp gap data p.1).2.2.2 ps hd hl
    rw [thinned_apart hp (by simp) h1] at h2
    rw [h2, hi ps hp p hm]

/-- **C404.** Data that do not rise reach the spline as they are, with the same temperature twice. -/
theorem falling_data : kept (K := ℚ) (1 / 1000000000) none [⟨some 20, 5⟩, ⟨some 100, 2⟩, ⟨some 20, 4⟩] =
    some [(20, 5), (100, 2), (20, 4)] := by decide +kernel

/-- **C404.** Data of one temperature reach the spline as a single point. -/
theorem one_temperature : kept (K := ℚ) (1 / 1000000000) none [⟨some 25, 5⟩, ⟨some 25, 4⟩] = some [(25, 5)] := by decide +kernel

example : Rising (K := ℚ) [(20, 5), (20, 4), (100, 2)] := by unfold Rising; decide +kernel
example : Interpolates (K := ℚ) 0 (fun ps t => (ps.find? fun p => p.1 == t).map fun p => p.2) := by
  intro ps hp p hm
  induction ps with
  | nil => cases hm
  | cons q ps ih =>
    have h' := List.pairwise_cons.mp hp
    rcases List.mem_cons.mp hm with rfl | hm
    · simp
    · have : q.1 ≠ p.1 := by
        intro e; have := h'.1 p hm; rw [e] at this; linarith
      change Option.map _ (List.find? _ (q :: ps)) = _
      rw [List.find?_cons_of_neg (by simpa using this)]
      exact ih h'.2 hm

/-! ## Wires -/

/-- **C405.** The resistivity of a wire is the reference at its temperature, and equal steps of temperature change it equally, by the
coefficient times the reference for each degree. -/
theorem wire_linear (r c t0 : K) : wireResistivity r c t0 t0 = r ∧
    ∀ a b : K, wireResistivity r c t0 b - wireResistivity r c t0 a = r * c * (b - a) := by
  refine ⟨by simp [wireResistivity], ?_⟩
  intro a b; unfold wireResistivity; ring

/-- **C405.** It is positive exactly above the temperature at which the line crosses zero. -/
theorem wire_positive {r c t0 : K} (hr : 0 < r) (hc : 0 < c) (t : K) : 0 < wireResistivity r c t0 t ↔ t0 - 1 / c < t := by
  unfold wireResistivity
  rw [mul_pos_iff_of_pos_left hr]
  constructor
  · intro h
    have : -1 < (t - t0) * c := by linarith [mul_comm c (t - t0)]
    have h2 : -1 / c < t - t0 := by rwa [div_lt_iff₀ hc]
    have : -1 / c = -(1 / c) := neg_div c 1
    linarith
  · intro h
    have h2 : -1 / c < t - t0 := by have : -1 / c = -(1 / c) := neg_div c 1; linarith
    rw [div_lt_iff₀ hc] at h2
    linarith [mul_comm c (t - t0)]

/-- **C405.** Below it the answer is not positive, and nothing refuses it. -/
theorem wire_negative : wireResistivity (K := ℚ) 1 (1 / 254) 20 (-260) < 0 := by norm_num [wireResistivity]

end Verif.Resistivity
