import Verif.Filters.Insulation
import Verif.Patterns.Props
import Mathlib.Algebra.Order.Field.Rat
import Mathlib.Algebra.Order.Field.Basic
import Mathlib.Tactic.Linarith

/-! # The filter by solid insulation (C195) -/

set_option linter.unusedSectionVars false

namespace Verif.Filters.Insulation

variable {K : Type} [Field K] [LinearOrder K] [IsStrictOrderedRing K]

theorem bind_value {α β : Type} {o : Outcome α} {f : α → Outcome β} {b : β} :
    o.bind f = .value b ↔ ∃ a : α, o = .value a ∧ f a = .value b := by
  cases o <;> simp [Outcome.bind]

/-- A coating insulates as required: its breakdown voltage is known and enough, and the minimum is met by its grade or by its layers. -/
def Insulates (r : Req K) (c : Coating K) : Prop :=
  (∃ v : K, c.breakdown = some v ∧ r.breakdown ≤ v) ∧
    (r.minGrade = none ∧ r.minLayers = none ∨ (∃ m g : ℤ, r.minGrade = some m ∧ c.grade = some g ∧ m ≤ g) ∨
      (∃ m l : ℤ, r.minLayers = some m ∧ c.layers = some l ∧ m ≤ l))

/-- A coating is not over what is allowed: no maximum is given, or its grade or its layers are known and not over it. -/
def Allowed (r : Req K) (c : Coating K) : Prop :=
  r.maxGrade = none ∧ r.maxLayers = none ∨ (∃ m g : ℤ, r.maxGrade = some m ∧ c.grade = some g ∧ g ≤ m) ∨
    (∃ m l : ℤ, r.maxLayers = some m ∧ c.layers = some l ∧ l ≤ m)

theorem underMinimum_false {r : Req K} {c : Coating K} (h : underMinimum r c = false) :
    r.minGrade = none ∧ r.minLayers = none ∨ (∃ m g : ℤ, r.minGrade = some m ∧ c.grade = some g ∧ m ≤ g) ∨
      (∃ m l : ℤ, r.minLayers = some m ∧ c.layers = some l ∧ m ≤ l) := by
  unfold underMinimum at h
  cases h1 : r.minGrade <;> cases h2 : c.grade <;> cases h3 : r.minLayers <;> cases h4 : c.layers <;> simp_all

theorem overMaximum_false {r : Req K} {c : Coating K} (h : overMaximum r c = false) : Allowed r c := by
  unfold overMaximum at h
  unfold Allowed
  cases h1 : r.maxGrade <;> cases h2 : c.grade <;> cases h3 : r.maxLayers <;> cases h4 : c.layers <;> simp_all

/-- The coating of the conductor itself: that of a strand for litz. -/
def coatingOf (w : Wire K) : Option (Coating K) := if w.kind = .litz then w.strand else w.outer

/-- C195. A wire that is accepted, other than a foil or a planar one, is coated, the coating of its conductor (of a strand for litz) insulates as required
and is not over what is allowed, and where a maximum is set its outside is not fully insulated. Its score is never positive. -/
theorem wire_accepted (w : Wire K) (r : Req K) {s : K} (hk : w.kind ≠ .sheet) (h : wire w r = .value (true, s)) :
    w.outer ≠ none ∧ (∃ c : Coating K, coatingOf w = some c ∧ Insulates r c ∧ Allowed r c) ∧
    ((r.maxLayers ≠ none ∨ r.maxGrade ≠ none) → ∀ o : Coating K, w.outer = some o → o.insulated = false) ∧ s ≤ 0 := by
  unfold wire at h
  rw [if_neg hk, bind_value] at h
  obtain ⟨oc, hoc, h⟩ := h
  cases oc with
  | none => simp at h
  | some c =>
    have hout : w.outer ≠ none := by intro e; simp [looked, e] at hoc
    have hc : coatingOf w = some c := by
      obtain ⟨o, ho⟩ := Option.ne_none_iff_exists'.mp hout
      simp only [looked, ho] at hoc
      unfold coatingOf
      split_ifs at hoc ⊢
      · cases hs : w.strand with
        | none => simp [hs, Outcome.take, Outcome.bind] at hoc
        | some s' => simpa [hs, Outcome.take, Outcome.bind] using hoc
      · rw [ho]; simpa using hoc
    simp only at h
    cases hb : c.breakdown with
    | none => simp [hb] at h
    | some v =>
      simp only [hb] at h
      by_cases h1 : v < r.breakdown
      · simp [h1] at h
      rw [if_neg h1] at h
      cases h2 : underMinimum r c with
      | true => simp [h2] at h
      | false =>
        rw [h2, if_neg (by simp)] at h
        by_cases h3 : ((r.maxLayers.isSome || r.maxGrade.isSome) && (w.outer.map (·.insulated)).getD false) = true
        · rw [if_pos h3] at h; simp at h
        rw [if_neg h3] at h
        cases h4 : overMaximum r c with
        | true => simp [h4] at h
        | false =>
          rw [h4, if_neg (by simp)] at h
          simp only [Outcome.value.injEq, Prod.mk.injEq, true_and] at h
          refine ⟨hout, ⟨c, hc, ⟨⟨v, hb, not_lt.mp h1⟩, underMinimum_false h2⟩, overMaximum_false h4⟩, ?_, ?_⟩
          · intro hm o ho
            by_contra hi
            apply h3
            rw [ho]
            simp only [Bool.and_eq_true, Option.map_some, Option.getD_some]
            refine ⟨?_, by simpa using hi⟩
            rcases hm with hm | hm
            · obtain ⟨x, hx⟩ := Option.ne_none_iff_exists'.mp hm; simp [hx]
            · obtain ⟨x, hx⟩ := Option.ne_none_iff_exists'.mp hm; simp [hx]
          · rw [← h]
            split_ifs
            · linarith [not_lt.mp h1]
            · exact le_refl _

/-- A triple insulated wire of 6 kV, for a reinforced insulation of 5 kV. -/
example : wire (K := ℚ) ⟨.other, some ⟨true, some 6, none, some 3⟩, none⟩ ⟨5, none, none, some 3, none⟩ = .value (true, -1) := by decide +kernel

/-- C195, the claim is false of the code: a foil or planar wire is accepted whatever is required of it, bare as well. -/
theorem sheet_accepted_counterexample (outer strand : Option (Coating K)) (r : Req K) : wire ⟨.sheet, outer, strand⟩ r = .value (true, 0) := rfl

/-- What each winding is asked for is met by its wire. -/
def AllMet (ws : List (Wire K)) (rs : List (Req K)) : Prop :=
  ∀ i : ℕ, ∀ w : Wire K, ws[i]? = some w → ∃ r : Req K, rs[i]? = some r ∧ ∃ s : K, wire w r = .value (true, s)

theorem combination_valid (rs : List (Req K)) : ∀ (ws : List (Wire K)) (i : ℕ) (valid : Bool) (score s : K),
    combination rs i ws valid score = .value (true, s) →
    valid = true ∧ (∀ j : ℕ, ∀ w : Wire K, ws[j]? = some w → ∃ r : Req K, rs[i + j]? = some r ∧ ∃ s : K, wire w r = .value (true, s)) ∧ s ≤ score
  | [], i, valid, score, s, h => by
    simp only [combination, Outcome.value.injEq, Prod.mk.injEq] at h
    exact ⟨h.1, by simp, h.2.ge⟩
  | w :: ws, i, valid, score, s, h => by
    simp only [combination, bind_value] at h
    obtain ⟨r, hr, ⟨av, as⟩, ha, h⟩ := h
    obtain ⟨h1, h2, h3⟩ := combination_valid rs ws (i + 1) _ _ _ h
    simp only [Bool.and_eq_true] at h1
    obtain ⟨hv, rfl⟩ := h1
    have hr' : rs[i]? = some r := by
      cases hri : rs[i]? with
      | none => simp [hri, Outcome.index] at hr
      | some x => simpa [hri, Outcome.index] using hr
    refine ⟨hv, ?_, ?_⟩
    · intro j w' hj
      cases j with
      | zero =>
        simp only [List.getElem?_cons_zero, Option.some.injEq] at hj
        subst hj
        exact ⟨r, hr', as, ha⟩
      | succ j =>
        simp only [List.getElem?_cons_succ] at hj
        have := h2 j w' hj
        rwa [show i + 1 + j = i + (j + 1) by omega] at this
    · have has : as ≤ 0 := by
        by_cases hk : w.kind = .sheet
        · simp only [wire, hk, if_true, Outcome.value.injEq, Prod.mk.injEq, true_and] at ha
          exact ha.ge
        · exact (wire_accepted w r hk ha).2.2.2
      simp only at h3
      linarith

theorem search_kept (ws : List (Wire K)) (required : List ℕ → ℕ → List (List (Req K))) : ∀ (ts : List (List ℕ × ℕ)) {sc : Score K},
    search ws required ts = .value ⟨true, sc⟩ → sc = .num 0 ∧ ∃ t ∈ ts, ∃ rs ∈ required t.1 t.2, AllMet ws rs
  | [], sc, h => by simp [search, rejected] at h
  | t :: ts, sc, h => by
    have key : ∀ (l : List (List (Req K))) (x : K), combinations ws l = .value (some x) → x = 0 ∧ ∃ rs ∈ l, AllMet ws rs := by
      intro l
      induction l with
      | nil => intro x h; simp [combinations] at h
      | cons rs rest ih =>
        intro x h
        simp only [combinations, bind_value] at h
        obtain ⟨⟨av, as⟩, ha, h⟩ := h
        cases av with
        | true =>
          simp only [if_true, Outcome.value.injEq, Option.some.injEq] at h
          obtain ⟨_, h2, h3⟩ := combination_valid rs ws 0 true 0 as ha
          refine ⟨by rw [← h]; exact max_eq_left h3, rs, by simp, ?_⟩
          intro i w hw
          simpa using h2 i w hw
        | false =>
          simp only [Bool.false_eq_true, if_false] at h
          obtain ⟨h1, rs', hm, h2⟩ := ih x h
          exact ⟨h1, rs', List.mem_cons_of_mem _ hm, h2⟩
    simp only [search, bind_value] at h
    obtain ⟨o, ho, h⟩ := h
    cases o with
    | some x =>
      simp only [Outcome.value.injEq, Answer.mk.injEq, true_and] at h
      obtain ⟨hx, rs, hm, ha⟩ := key _ x ho
      exact ⟨by rw [← h, hx], t, by simp, rs, hm, ha⟩
    | none =>
      simp only at h
      obtain ⟨h1, t', ht, h2⟩ := search_kept ws required ts h
      exact ⟨h1, t', List.mem_cons_of_mem _ ht, h2⟩

/-- C195. A magnetic that is kept has wires that meet all together one of the combinations of requirements of something that was tried. Its score is
always zero, so it says nothing of how well it insulates. -/
theorem insulation_kept (ws : List (Wire K)) (required : List ℕ → ℕ → List (List (Req K))) (physical : List ℕ) (patterns : List (List ℕ))
    (repetitions : List ℕ) {sc : Score K} (h : filter ws required physical patterns repetitions = .value ⟨true, sc⟩) :
    sc = .num 0 ∧ ∃ ts, Patterns.tried physical patterns repetitions = .value ts ∧ ∃ t ∈ ts, ∃ rs ∈ required t.1 t.2, AllMet ws rs := by
  simp only [filter, bind_value] at h
  obtain ⟨ts, hts, h⟩ := h
  obtain ⟨h1, h2⟩ := search_kept ws required ts h
  exact ⟨h1, ts, hts, h2⟩

/-- Two windings with enamelled wires of grade 2, at 0.4 kV: kept in the second combination. -/
def enamelled : Wire ℚ := ⟨.other, some ⟨false, some 4, some 2, none⟩, none⟩

example : filter [enamelled, enamelled] (fun _ _ => [[⟨5, none, none, some 3, none⟩, ⟨0, some 1, none, some 1, none⟩],
    [⟨2, some 1, none, some 1, none⟩, ⟨0, some 1, none, some 1, none⟩]]) [10, 5] [[0, 1]] [1, 2] = .value ⟨true, .num 0⟩ := by decide +kernel

/-- C195, the claim is false of the code: a coil with more windings than there are requirements, which are made for those of the inputs, reads
beyond their end. -/
theorem few_requirements_counterexample :
    filter [enamelled, enamelled] (fun _ _ => [[⟨2, some 1, none, some 1, none⟩]]) [10, 5] [[0, 1]] [1] = .undefined := by decide +kernel

end Verif.Filters.Insulation
