import Verif.LossSweep.Model
import Mathlib.Algebra.Order.Field.Rat
import Mathlib.Tactic.Linarith
import Mathlib.Tactic.Positivity
import Mathlib.Tactic.FieldSimp
import Mathlib.Tactic.Ring

/-!
# Properties of the filters by losses that look for the best number of turns
-/

set_option linter.unusedSectionVars false
set_option linter.unusedSimpArgs false

namespace Verif.LossSweep

variable {K : Type} [Field K] [LinearOrder K] [IsStrictOrderedRing K]

/-! ## What is meant -/

/-- The total losses with a number of turns. -/
def Total (p : Point K) (n : ℕ) (v : K) : Prop := ∃ c w, p.core n = .value c ∧ p.winding n = some w ∧ 0 ≤ c ∧ 0 ≤ w ∧ v = c + w

/-- The core does not saturate with a number of turns, as far as can be told. -/
def Safe (S : Setup K) (p : Point K) (n : ℕ) : Prop := 0 < p.peak → ∀ i, p.saturation n = some i → 0 < i → S.margin * p.peak ≤ i

/-- The inductance meets the requirement or is at most the one asked for. -/
def NotOver (S : Setup K) (p : Point K) (n : ℕ) : Prop := S.passes (p.inductance n) = true ∨ p.inductance n ≤ S.required

/-- The turns that are tried: the first ones, and each time the next multiple of the step that is at least a step more. -/
def seq (step : ℕ) : ℕ → ℕ → ℕ
  | 0, n => n
  | i + 1, n => seq step i (advance step n)

/-- A number of turns that has been looked at in full. -/
structure Fine (S : Setup K) (p : Point K) (n : ℕ) (v : K) : Prop where
  total : Total p n v
  safe : Safe S p n
  notOver : NotOver S p n
  wound : p.laidOut n = true

theorem Total.unique {p : Point K} {n : ℕ} {v w : K} (h : Total p n v) (h' : Total p n w) : v = w := by
  obtain ⟨c, x, e1, e2, _, _, rfl⟩ := h
  obtain ⟨c', x', e1', e2', _, _, rfl⟩ := h'
  rw [e1] at e1'
  rw [e2] at e2'
  simp only [Pick.value.injEq, Option.some.injEq] at e1' e2'
  rw [e1', e2']

theorem Total.nonneg {p : Point K} {n : ℕ} {v : K} (h : Total p n v) : 0 ≤ v := by
  obtain ⟨c, x, _, _, h1, h2, rfl⟩ := h
  exact add_nonneg h1 h2

theorem safe_of {S : Setup K} {p : Point K} {n : ℕ} (h : capped S p n = false) : Safe S p n := by
  intro hp i hi h0
  unfold capped at h
  rw [hi] at h
  simp only [hp, h0, decide_true, Bool.true_and, true_and, decide_eq_false_iff_not, not_lt] at h
  exact h

theorem notOver_of {S : Setup K} {p : Point K} {n : ℕ} (h : tooHigh S p n = false) : NotOver S p n := by
  unfold tooHigh at h
  unfold NotOver
  cases hp : S.passes (p.inductance n) with
  | true => exact Or.inl rfl
  | false =>
    rw [hp] at h
    simp only [Bool.not_false, Bool.true_and, decide_eq_false_iff_not, not_lt] at h
    exact Or.inr h

/-- What a turn of the loop does when it gets to the losses. -/
theorem body_evaluated {S : Setup K} {p : Point K} {s s' : State K} {v : K} (h : body S p s = .evaluated s' v) :
    Fine S p s.next v ∧ s'.coil = s.next ∧ s'.next = advance S.step s.next ∧ s'.magnetic = s.magnetic ∧ s'.new = some v ∧ S.integrated = false ∧
      ∃ c, s'.core = some c := by
  unfold body at h
  by_cases h1 : capped S p s.next = true
  · rw [if_pos h1] at h; simp at h
  rw [if_neg h1] at h
  by_cases h2 : tooHigh S p s.next = true
  · rw [if_pos h2] at h; simp at h
  rw [if_neg h2] at h
  unfold evaluate at h
  by_cases h3 : S.integrated = false ∧ p.laidOut (moved S p s).coil = false
  · rw [if_pos h3] at h; simp at h
  rw [if_neg h3] at h
  cases hc : p.core (moved S p s).coil with
  | unscored => rw [hc] at h; simp at h
  | value c =>
    rw [hc] at h
    simp only at h
    by_cases h4 : c < 0
    · rw [if_pos h4] at h; simp at h
    rw [if_neg h4] at h
    by_cases h5 : p.laidOut (moved S p s).coil = false
    · rw [if_pos h5] at h; simp at h
    rw [if_neg h5] at h
    by_cases h6 : S.integrated = true
    · rw [if_pos h6] at h; simp at h
    rw [if_neg h6] at h
    cases hw : p.winding (moved S p s).coil with
    | none => rw [hw] at h; simp at h
    | some w =>
      rw [hw] at h
      simp only at h
      split_ifs at h with h7
      simp only [Tried.evaluated.injEq] at h
      obtain ⟨rfl, rfl⟩ := h
      refine ⟨⟨⟨c, w, hc, hw, not_lt.1 h4, not_lt.1 h7, rfl⟩, safe_of (by simpa using h1), notOver_of (by simpa using h2), ?_⟩, rfl, rfl, rfl, rfl, ?_, c, rfl⟩
      · simpa [moved] using h5
      · simpa using h6

/-- And when it does not. -/
theorem body_stop {S : Setup K} {p : Point K} {s s' : State K} (h : body S p s = .stop s') :
    s'.magnetic = s.magnetic ∧ ((s'.core = s.core ∧ s'.new = s.new) ∨
      (S.integrated = true ∧ ∃ c, p.core s.next = .value c ∧ 0 ≤ c ∧ s'.core = some c ∧ s'.new = some c ∧ s'.coil = s.next)) := by
  unfold body at h
  by_cases h1 : capped S p s.next = true
  · rw [if_pos h1, Tried.stop.injEq] at h
    subst h
    exact ⟨rfl, Or.inl ⟨rfl, rfl⟩⟩
  rw [if_neg h1] at h
  by_cases h2 : tooHigh S p s.next = true
  · rw [if_pos h2, Tried.stop.injEq] at h
    subst h
    exact ⟨rfl, Or.inl ⟨rfl, rfl⟩⟩
  · rw [if_neg h2] at h
    unfold evaluate at h
    by_cases h3 : S.integrated = false ∧ p.laidOut (moved S p s).coil = false
    · rw [if_pos h3] at h; simp at h
    rw [if_neg h3] at h
    cases hc : p.core (moved S p s).coil with
    | unscored => rw [hc] at h; simp at h
    | value c =>
      rw [hc] at h
      simp only at h
      by_cases h4 : c < 0
      · rw [if_pos h4] at h; simp at h
      rw [if_neg h4] at h
      by_cases h5 : p.laidOut (moved S p s).coil = false
      · rw [if_pos h5] at h; simp at h
      rw [if_neg h5] at h
      by_cases h6 : S.integrated = true
      · rw [if_pos h6, Tried.stop.injEq] at h
        subst h
        exact ⟨rfl, Or.inr ⟨h6, c, hc, not_lt.1 h4, rfl, rfl, rfl⟩⟩
      · rw [if_neg h6] at h
        cases hw : p.winding (moved S p s).coil with
        | none => rw [hw] at h; simp at h
        | some w =>
          rw [hw] at h
          simp only at h
          split_ifs at h

theorem improve_le (b : Option (K × ℕ)) (v : K) (n : ℕ) :
    (improve b v n = some (v, n) ∨ (improve b v n = b ∧ ∃ w t, b = some (w, t) ∧ w ≤ v)) ∧
    (∃ w t, improve b v n = some (w, t) ∧ w ≤ v) ∧ ∀ w t, b = some (w, t) → ∃ w' t', improve b v n = some (w', t') ∧ w' ≤ w := by
  unfold improve
  cases b with
  | none => simp
  | some q =>
    obtain ⟨w, t⟩ := q
    simp only
    by_cases h : v < w
    · rw [if_pos h]
      exact ⟨Or.inl rfl, ⟨v, n, rfl, le_rfl⟩, fun w' t' e => ⟨v, n, rfl, by simp at e; rw [← e.1]; exact h.le⟩⟩
    · rw [if_neg h]
      exact ⟨Or.inr ⟨rfl, w, t, rfl, not_lt.1 h⟩, ⟨w, t, rfl, not_lt.1 h⟩, fun w' t' e => ⟨w', t', e, le_rfl⟩⟩

/-- What the loop leaves: the best of the turns that it tried and of what it had. -/
theorem loop_done (S : Setup K) (p : Point K) (k : ℕ) (s : State K) (b : Option (K × ℕ)) (s' : State K) (b' : Option (K × ℕ))
    (h : loop S p k s b = .done s' b') :
    s'.magnetic = s.magnetic ∧
    ∃ j ≤ k, (∀ i < j, ∃ v, Fine S p (seq S.step i s.next) v ∧ ∃ w t, b' = some (w, t) ∧ w ≤ v) ∧
      (b' = b ∨ ∃ i < j, ∃ v, Fine S p (seq S.step i s.next) v ∧ b' = some (v, seq S.step i s.next)) ∧
      (∀ v t, b = some (v, t) → ∃ w t', b' = some (w, t') ∧ w ≤ v) := by
  induction k generalizing s b with
  | zero =>
    simp only [loop, Swept.done.injEq] at h
    obtain ⟨rfl, rfl⟩ := h
    exact ⟨rfl, 0, le_rfl, by simp, Or.inl rfl, fun v t e => ⟨v, t, e, le_rfl⟩⟩
  | succ k ih =>
    unfold loop at h
    cases hb : body S p s with
    | stop s1 =>
      rw [hb] at h
      simp only [Swept.done.injEq] at h
      obtain ⟨rfl, rfl⟩ := h
      exact ⟨(body_stop hb).1, 0, Nat.zero_le _, by simp, Or.inl rfl, fun v t e => ⟨v, t, e, le_rfl⟩⟩
    | reject => rw [hb] at h; simp at h
    | throws => rw [hb] at h; simp at h
    | evaluated s1 v =>
      rw [hb] at h
      simp only at h
      obtain ⟨hf, hcoil, hnext, hmag, _⟩ := body_evaluated hb
      obtain ⟨hi1, ⟨w0, t0, hi2, hi2'⟩, hi3⟩ := improve_le b v s1.coil
      split_ifs at h with h1
      · simp only [Swept.done.injEq] at h
        obtain ⟨rfl, rfl⟩ := h
        refine ⟨hmag, 1, by omega, ?_, ?_, hi3⟩
        · intro i hi
          obtain rfl : i = 0 := by omega
          exact ⟨v, hf, w0, t0, hi2, hi2'⟩
        · rcases hi1 with e | ⟨e, _⟩
          · exact Or.inr ⟨0, by omega, v, hf, by rw [e, hcoil]; rfl⟩
          · exact Or.inl e
      · obtain ⟨g1, j, hj, g2, g3, g4⟩ := ih _ _ h
        refine ⟨g1.trans hmag, j + 1, by omega, ?_, ?_, ?_⟩
        · intro i hi
          cases i with
          | zero =>
            obtain ⟨w, t, e, hw⟩ := g4 w0 t0 hi2
            exact ⟨v, hf, w, t, e, hw.trans hi2'⟩
          | succ i =>
            have := g2 i (by omega)
            rw [show ({ s1 with iteration := k } : State K).next = advance S.step s.next from hnext] at this
            exact this
        · rcases g3 with e | ⟨i, hi, v', hv', e⟩
          · rcases hi1 with e1 | ⟨e1, _⟩
            · exact Or.inr ⟨0, by omega, v, hf, by rw [e, e1, hcoil]; rfl⟩
            · exact Or.inl (e.trans e1)
          · refine Or.inr ⟨i + 1, by omega, v', ?_, ?_⟩
            · rw [show ({ s1 with iteration := k } : State K).next = advance S.step s.next from hnext] at hv'
              exact hv'
            · rw [show ({ s1 with iteration := k } : State K).next = advance S.step s.next from hnext] at e
              exact e
        · intro u t e
          obtain ⟨w1, t1, e1, hw1⟩ := hi3 u t e
          obtain ⟨w2, t2, e2, hw2⟩ := g4 w1 t1 e1
          exact ⟨w2, t2, e2, hw2.trans hw1⟩

/-- Nothing finite was had before, and the losses of the state are those of a number of turns. -/
theorem loop_none (S : Setup K) (hS : S.integrated = false) (p : Point K) (k : ℕ) (s : State K) (s' : State K)
    (h : loop S p k s none = .done s' none) : s'.core = s.core ∧ s'.new = s.new := by
  cases k with
  | zero =>
    simp only [loop, Swept.done.injEq] at h
    obtain ⟨rfl, _⟩ := h
    exact ⟨rfl, rfl⟩
  | succ k =>
    unfold loop at h
    cases hb : body S p s with
    | stop s1 =>
      rw [hb] at h
      simp only [Swept.done.injEq, and_true] at h
      subst h
      rcases (body_stop hb).2 with h2 | ⟨h2, _⟩
      · exact h2
      · rw [hS] at h2; simp at h2
    | reject => rw [hb] at h; simp at h
    | throws => rw [hb] at h; simp at h
    | evaluated s1 v =>
      exfalso
      rw [hb] at h
      simp only at h
      obtain ⟨_, ⟨w0, t0, hi2, _⟩, _⟩ := improve_le (none : Option (K × ℕ)) v s1.coil
      split_ifs at h with h1
      · simp only [Swept.done.injEq] at h
        rw [hi2] at h
        simp at h
      · obtain ⟨_, _, _, _, _, g4⟩ := loop_done S p _ _ _ _ _ h
        obtain ⟨w, t, e, _⟩ := g4 w0 t0 hi2
        simp at e

/-- **C314.** With one operating point the score is the total losses with the turns that the magnetic is left with, which are the best of those tried, at
most ten; with them the core does not saturate, the inductance is not over the requirement and the winding could be laid out; it is accepted if the losses are less than
a twentieth of the power over nine tenths. -/
theorem one_point (S : Setup K) (hS : S.integrated = false) (p : Point K) (start t : ℕ) (valid : Bool) (v : K)
    (h : filter S [p] start = ⟨t, .score valid v⟩) :
    ∃ j ≤ 10, (∃ i < j, t = seq S.step i start) ∧ Fine S p t v ∧ (∀ i < j, ∃ w, Total p (seq S.step i start) w ∧ v ≤ w) ∧
      (valid = true ↔ v < S.power * (5 / 100) / (9 / 10)) := by
  unfold filter at h
  simp only [points, List.length_singleton, List.nil_append] at h
  cases hl : loop S p (budget (initial start : State K).iteration) (initial start) none with
  | reject => rw [hl] at h; simp at h
  | throws => rw [hl] at h; simp at h
  | done s' b =>
    rw [hl] at h
    simp only [points] at h
    obtain ⟨g1, j, hj, g2, g3, _⟩ := loop_done S p _ _ _ _ _ hl
    cases b with
    | none =>
      obtain ⟨e1, _⟩ := loop_none S hS p _ _ _ hl
      have e2 : s'.core = none := e1
      simp only [settle, e2, finalize, List.length_nil, Nat.zero_lt_one, if_true, Answer.mk.injEq] at h
      exact absurd h.2 (by simp)
    | some q =>
      rcases g3 with g3 | ⟨i, hi, w, hw, g3⟩
      · simp at g3
      · simp only [Option.some.injEq] at g3
        subst g3
        simp only [settle, finalize, List.length_singleton, lt_irrefl, if_false, sum, Option.map_some, Nat.cast_one, div_one, add_zero,
          Answer.mk.injEq, one_ne_zero, Verdict.score.injEq] at h
        obtain ⟨rfl, hv, rfl⟩ := h
        refine ⟨j, ?_, ⟨i, hi, rfl⟩, hw, ?_, ?_⟩
        · simpa [budget, initial] using hj
        · intro i' hi'
          obtain ⟨u, hu, w', t', e, hle⟩ := g2 i' hi'
          simp only [Option.some.injEq, Prod.mk.injEq] at e
          exact ⟨u, hu.total, by rw [e.1]; exact hle⟩
        · rw [← hv]
          simp

/-- **C314.** With one operating point, a magnetic that is not scored keeps its turns. -/
theorem untouched (S : Setup K) (hS : S.integrated = false) (p : Point K) (start : ℕ)
    (h : ∀ valid v, (filter S [p] start).verdict ≠ .score valid v) : (filter S [p] start).turns = start := by
  unfold filter at h ⊢
  simp only [points, List.length_singleton, List.nil_append] at h ⊢
  cases hl : loop S p (budget (initial start : State K).iteration) (initial start) none with
  | reject => rfl
  | throws => rfl
  | done s' b =>
    rw [hl] at h
    simp only [points] at h ⊢
    obtain ⟨g1, _⟩ := loop_done S p _ _ _ _ _ hl
    cases b with
    | none =>
      obtain ⟨e1, _⟩ := loop_none S hS p _ _ _ hl
      have e2 : s'.core = none := e1
      simp only [settle, e2]
      exact g1
    | some q =>
      obtain ⟨w, t⟩ := q
      exfalso
      refine h (decide (w < S.power * (5 / 100) / (9 / 10))) w ?_
      simp [settle, finalize, sum]

/-! ## Any number of operating points -/

/-- Losses that are finite are not negative, and the losses of the state are finite if those of the core are. -/
def Sound (s : State K) : Prop := (∀ v, s.new = some v → 0 ≤ v) ∧ (∀ c, s.core = some c → ∃ v, s.new = some v)

theorem loop_sound (S : Setup K) (p : Point K) (k : ℕ) (s : State K) (b : Option (K × ℕ)) (s' : State K) (b' : Option (K × ℕ)) (hs : Sound s)
    (hb0 : ∀ v t, b = some (v, t) → 0 ≤ v) (h : loop S p k s b = .done s' b') : Sound s' ∧ ∀ v t, b' = some (v, t) → 0 ≤ v := by
  induction k generalizing s b with
  | zero =>
    simp only [loop, Swept.done.injEq] at h
    obtain ⟨rfl, rfl⟩ := h
    exact ⟨hs, hb0⟩
  | succ k ih =>
    unfold loop at h
    cases hb : body S p s with
    | stop s1 =>
      rw [hb] at h
      simp only [Swept.done.injEq] at h
      obtain ⟨rfl, rfl⟩ := h
      refine ⟨?_, hb0⟩
      rcases (body_stop hb).2 with ⟨e1, e2⟩ | ⟨_, c, _, hc, e1, e2, _⟩
      · refine ⟨fun v hv => hs.1 v (by rw [← e2]; exact hv), fun c hc => ?_⟩
        rw [e2]
        exact hs.2 c (by rw [← e1]; exact hc)
      · refine ⟨fun v hv => ?_, fun _ _ => ⟨c, e2⟩⟩
        rw [e2] at hv
        simp only [Option.some.injEq] at hv
        rw [← hv]; exact hc
    | reject => rw [hb] at h; simp at h
    | throws => rw [hb] at h; simp at h
    | evaluated s1 v =>
      rw [hb] at h
      simp only at h
      obtain ⟨hf, _, _, _, hnew, _, _⟩ := body_evaluated hb
      have hv0 := hf.total.nonneg
      have hs1 : Sound ({ s1 with iteration := k } : State K) := by
        refine ⟨fun w hw => ?_, fun _ _ => ⟨v, hnew⟩⟩
        have hw' : s1.new = some w := hw
        rw [hnew] at hw'
        simp only [Option.some.injEq] at hw'
        rw [← hw']; exact hv0
      have hb1 : ∀ w t, improve b v s1.coil = some (w, t) → 0 ≤ w := by
        intro w t e
        rcases (improve_le b v s1.coil).1 with e1 | ⟨e1, _⟩
        · rw [e1] at e
          simp only [Option.some.injEq, Prod.mk.injEq] at e
          rw [← e.1]; exact hv0
        · rw [e1] at e
          exact hb0 w t e
      split_ifs at h with h1
      · simp only [Swept.done.injEq] at h
        obtain ⟨rfl, rfl⟩ := h
        exact ⟨hs1, hb1⟩
      · exact ih _ _ hs1 hb1 h

theorem settle_sound {s : State K} {b : Option (K × ℕ)} (hs : Sound s) (hb : ∀ v t, b = some (v, t) → 0 ≤ v) :
    Sound (settle s b).1 ∧ ∀ o ∈ (settle s b).2, ∃ v, o = some v ∧ 0 ≤ v := by
  unfold settle
  cases b with
  | some q =>
    obtain ⟨v, t⟩ := q
    exact ⟨hs, fun o ho => ⟨v, by simpa using ho, hb v t rfl⟩⟩
  | none =>
    cases hc : s.core with
    | none => exact ⟨hs, by simp⟩
    | some c =>
      simp only
      split_ifs
      · refine ⟨⟨hs.1, fun _ _ => hs.2 c hc⟩, fun o ho => ?_⟩
        obtain ⟨v, hv⟩ := hs.2 c hc
        exact ⟨v, by simpa [hv] using ho, hs.1 v hv⟩
      · exact ⟨hs, by simp⟩

theorem sum_sound (l : List (Option K)) (h : ∀ o ∈ l, ∃ v, o = some v ∧ 0 ≤ v) : ∃ v, sum l = some v ∧ 0 ≤ v := by
  induction l with
  | nil => exact ⟨0, rfl, le_rfl⟩
  | cons o l ih =>
    obtain ⟨v, rfl, hv⟩ := h o List.mem_cons_self
    obtain ⟨w, e, hw⟩ := ih fun o ho => h o (List.mem_cons_of_mem _ ho)
    exact ⟨v + w, by simp [sum, e], add_nonneg hv hw⟩

theorem points_score (S : Setup K) (n : ℕ) (ps : List (Point K)) (s : State K) (l : List (Option K)) (hs : Sound s)
    (hl : ∀ o ∈ l, ∃ v, o = some v ∧ 0 ≤ v) (t : ℕ) (valid : Bool) (v : K) (h : points S n ps s l = ⟨t, .score valid v⟩) :
    0 ≤ v ∧ 0 < n ∧ (valid = true ↔ v < S.power * (5 / 100) / (9 / 10)) := by
  induction ps generalizing s l with
  | nil =>
    simp only [points, Answer.mk.injEq] at h
    obtain ⟨_, h⟩ := h
    unfold finalize at h
    by_cases h0 : l.length < n
    · rw [if_pos h0] at h; simp at h
    rw [if_neg h0] at h
    obtain ⟨w, e, hw⟩ := sum_sound l hl
    rw [e] at h
    simp only at h
    split_ifs at h with h2
    simp only [Verdict.score.injEq] at h
    obtain ⟨h3, rfl⟩ := h
    refine ⟨div_nonneg hw (Nat.cast_nonneg _), Nat.pos_of_ne_zero h2, ?_⟩
    rw [← h3]
    simp
  | cons p ps ih =>
    unfold points at h
    cases hlp : loop S p (budget s.iteration) s none with
    | reject => rw [hlp] at h; simp at h
    | throws => rw [hlp] at h; simp at h
    | done s' b =>
      rw [hlp] at h
      simp only at h
      obtain ⟨h1, h2⟩ := loop_sound S p _ _ _ _ _ hs (by simp) hlp
      obtain ⟨h3, h4⟩ := settle_sound h1 h2
      refine ih _ _ h3 ?_ h
      intro o ho
      rcases List.mem_append.1 ho with ho | ho
      · exact hl o ho
      · exact h4 o ho

/-- **C314.** With any number of operating points, a score is never negative and the magnetic is accepted exactly when it is under the budget; so the
filter made without inputs, which has no budget, accepts nothing. -/
theorem budget_decides (S : Setup K) (ps : List (Point K)) (start t : ℕ) (valid : Bool) (v : K) (h : filter S ps start = ⟨t, .score valid v⟩) :
    0 ≤ v ∧ (valid = true ↔ v < S.power * (5 / 100) / (9 / 10)) ∧ (S.power ≤ 0 → valid = false) := by
  obtain ⟨h1, _, h2⟩ := points_score S _ ps _ _ (⟨by simp [initial], by simp [initial]⟩) (by simp) t valid v h
  refine ⟨h1, h2, fun hp => ?_⟩
  cases hv : valid with
  | false => rfl
  | true =>
    exfalso
    have h3 := h2.1 hv
    have : S.power * (5 / 100) / (9 / 10) ≤ 0 := by
      have e : S.power * (5 / 100) / (9 / 10) = S.power * (1 / 18) := by
        field_simp
        ring
      rw [e]
      exact mul_nonpos_of_nonpos_of_nonneg hp (by positivity)
    linarith

/-- **C314.** The step of the search is at least a turn, so the turns that are tried grow. -/
theorem tried_grow (step : ℕ) (hs : 0 < step) (n : ℕ) : n < advance step n ∧ step ∣ advance step n ∧ advance step n < n + 2 * step := by
  unfold advance
  refine ⟨?_, Dvd.intro_left _ rfl, ?_⟩
  · have h1 := Nat.div_add_mod (n + step + (step - 1)) step
    have h2 := Nat.mod_lt (n + step + (step - 1)) hs
    rw [Nat.mul_comm] at h1
    omega
  · have h1 := Nat.div_mul_le_self (n + step + (step - 1)) step
    omega

/-! ## Cases -/

/-- An inductance of the square of the turns, between 100 and 400 and nominally 200. -/
def setup : Setup ℚ := ⟨1, false, 12 / 10, fun l => decide (100 ≤ l ∧ l ≤ 400), 200, 1000⟩

/-- An operating point with some losses, that saturates from some turns. -/
def point (peak : ℚ) (from_ : ℕ) (total : ℕ → ℚ) : Point ℚ :=
  ⟨peak, fun n => some (if from_ ≤ n then 1 else 100), fun n => n ^ 2, fun _ => true, fun n => .value (total n / 2), fun n => some (total n / 2)⟩

/-- Losses that are least with the turns there are, and others that fall with more. -/
def early : ℕ → ℚ := fun n => if n ≤ 10 then 10 else 10 * (n - 9)
def late : ℕ → ℚ := fun n => if n = 12 then 5 else n - 4

/-- Case of `one_point`. -/
example : filter setup [point 1 15 early] 10 = ⟨10, .score true 10⟩ ∧ filter setup [point 1 15 (fun n => 100 / n ^ 3)] 10 = ⟨14, .score true (100 / 14 ^ 3)⟩ := by
  decide +kernel

/-- Case of `untouched`. -/
example : filter setup [point 1 10 early] 10 = ⟨10, .rejected⟩ := by decide +kernel

/-- **C315.** With two operating points the losses of each are with other turns: the score is not the mean of the losses with the turns the
magnetic is left with, nor with those it had. -/
theorem mixed_turns : filter setup [point 0 0 early, point 0 0 late] 10 = ⟨12, .score true (15 / 2)⟩ ∧ (early 12 + late 12) / 2 = 35 / 2 ∧
    (early 10 + late 10) / 2 = 8 := by decide +kernel

/-- **C315.** The order of the operating points changes the score. -/
theorem order_matters : filter setup [point 0 0 early, point 0 0 late] 10 = ⟨12, .score true (15 / 2)⟩ ∧
    filter setup [point 0 0 late, point 0 0 early] 10 = ⟨12, .score true 18⟩ := by decide +kernel

/-- **C315.** A magnetic that saturates at an operating point is rejected if it is the only one or the first one, and accepted after another, with the
last losses of the other. -/
theorem saturated_accepted : filter setup [point 1 10 late] 10 = ⟨10, .rejected⟩ ∧
    filter setup [point 0 0 early, point 1 10 late] 10 = ⟨11, .score true ((10 + early 11) / 2)⟩ := by decide +kernel

/-- **C315.** The turns that it is left with may saturate at an operating point that was looked at before. -/
theorem saturates_before : (filter setup [point 1 12 early, point 0 0 late] 10).turns = 12 ∧ capped setup (point 1 12 early) 12 = true := by decide +kernel

/-- **C316.** A magnetic may be left with turns whose inductance is too low, although the score says it is fine. -/
theorem low_inductance : filter setup [point 0 0 early] 5 = ⟨5, .score true 10⟩ ∧ setup.passes ((point 0 0 early).inductance 5) = false := by decide +kernel

/-- **C316.** Only the turns of the first winding are changed: a ratio of two becomes another. -/
theorem ratio_lost : windings setup [point 0 0 (fun n => 100 / n ^ 3)] [10, 5] = [19, 5] := by decide +kernel

/-- **C316.** The ratio to any other winding is kept only if the turns are. -/
theorem ratio_kept_iff (S : Setup K) (ps : List (Point K)) (n m : ℕ) (hm : 0 < m) (rest : List ℕ) :
    (∃ t, windings S ps (n :: m :: rest) = t :: m :: rest ∧ (t : ℚ) / m = (n : ℚ) / m) ↔ (filter S ps n).turns = n := by
  have hm' : (m : ℚ) ≠ 0 := by positivity
  simp only [windings, List.cons.injEq, and_true]
  constructor
  · rintro ⟨t, rfl, h⟩
    have := (div_left_inj' hm').1 h
    exact_mod_cast this
  · intro h
    exact ⟨_, rfl, by rw [h]⟩

/-- **C317.** The ten iterations are for all operating points, and once they are spent, the next operating point has no limit: here thirty more. -/
theorem limit_wraps : filter { setup with passes := fun _ => true } [point 0 0 (fun n => 1 / 2 ^ n), point 0 0 (fun n => if n ≤ 49 then 1 / 2 ^ n else 1)] 10 =
    ⟨49, .score true ((1 / 2 ^ 19 + 1 / 2 ^ 49) / 2)⟩ := by decide +kernel

end Verif.LossSweep
