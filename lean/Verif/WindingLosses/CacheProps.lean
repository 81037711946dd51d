import Verif.WindingLosses.Cache

/-! # Properties of the cache of skin factors -/

namespace Verif.WindingLosses

/-- The answer of the formula, with nothing remembered. -/
def fresh (factors : Factors) (q : Call) : Res ℚ :=
  (factors q.model q.wire q.frequency q.temperature).bind fun x => .ok (q.dc * (x - 1))

/-- Wires alike to the cache: the same name, or both without name and of the same conductors and outer size. -/
def Alike (a b : Wire) : Prop :=
  (a.name ≠ none ∧ a.name = b.name) ∨
    (a.name = none ∧ b.name = none ∧ a.conductors.getD 1 = b.conductors.getD 1 ∧ a.width = b.width ∧ a.height = b.height)

theorem alike_of_key {a b : Wire} (h : keyOf a = keyOf b) : Alike a b := by
  unfold keyOf at h
  cases ha : a.name <;> cases hb : b.name <;> simp [ha, hb] at h
  · exact .inr ⟨ha, hb, h.1, h.2.1, h.2.2⟩
  · exact .inl ⟨by simp [ha], by rw [ha, hb, h]⟩

/-- Every factor kept was computed for a wire of the past with the same key. -/
def Sound (factors : Factors) (past : List Call) (s : Cache) : Prop :=
  ∀ m k f t x, s.lookup (m, k, f, t) = some x → ∃ q ∈ past, q.model = m ∧ keyOf q.wire = k ∧
    factors m q.wire f t = .ok x

theorem sound_step {factors : Factors} {past : List Call} {s : Cache} (h : Sound factors past s) (q : Call) :
    Sound factors (past ++ [q]) (turnLosses factors q s).1 := by
  have old : Sound factors (past ++ [q]) s := fun m k f t x hx => by
    obtain ⟨p, hp, r⟩ := h m k f t x hx; exact ⟨p, by simp [hp], r⟩
  unfold turnLosses
  cases getFactor s q.model q.wire q.frequency q.temperature with
  | some x => exact old
  | none =>
    simp only
    cases hf : factors q.model q.wire q.frequency q.temperature with
    | throws e => exact old
    | ub => exact old
    | ok x =>
      intro m k f t y hy
      simp only [setFactor, List.lookup_cons] at hy
      split at hy
      · rename_i he
        simp only [beq_iff_eq, Prod.mk.injEq] at he
        obtain ⟨rfl, rfl, rfl, rfl⟩ := he
        simp only [Option.some.injEq] at hy; subst hy
        exact ⟨q, by simp, rfl, rfl, hf⟩
      · exact old m k f t y hy

theorem sound_after {factors : Factors} (qs : List Call) : ∀ (past : List Call) (s : Cache), Sound factors past s →
    Sound factors (past ++ qs) (after factors qs s) := by
  induction qs with
  | nil => intro past s h; simpa [after] using h
  | cons q qs ih =>
    intro past s h
    have := ih (past ++ [q]) _ (sound_step h q)
    simpa [after] using this

/-- C86, in part: after any history of questions, failed ones too, the losses are those the formula gives, when wires of
the history that the cache cannot tell from the wire asked have the same factor. What is missing is false:
`wire_of_same_name` and `wire_of_same_size`. -/
theorem skin_ignores_history_partial (factors : Factors) (past : List Call) (q : Call)
    (h : ∀ p ∈ past, p.model = q.model → Alike p.wire q.wire →
      factors q.model p.wire q.frequency q.temperature = factors q.model q.wire q.frequency q.temperature) :
    (turnLosses factors q (after factors past [])).2 = fresh factors q := by
  have hs : Sound factors past (after factors past []) := by
    have := sound_after (factors := factors) past [] [] (by intro m k f t x hx; simp at hx)
    simpa using this
  unfold turnLosses fresh
  cases hg : getFactor (after factors past []) q.model q.wire q.frequency q.temperature with
  | some x =>
    obtain ⟨p, hp, hm, hk, hx⟩ := hs _ _ _ _ _ hg
    rw [← h p hp hm (alike_of_key hk), hx]; rfl
  | none => simp only; cases factors q.model q.wire q.frequency q.temperature <;> rfl

/-- Factor that depends on the part of the wire the cache does not see. -/
def byRest : Factors := fun _ w _ _ => .ok (w.rest + 2)

/-- The hypothesis of `skin_ignores_history_partial` met by a history of two wires and a repeated question. -/
example : (turnLosses byRest ⟨0, ⟨false, some "a", none, 1, 1, 3⟩, 2, 100, 25⟩ (after byRest
    [⟨0, ⟨false, some "b", none, 1, 1, 7⟩, 1, 100, 25⟩, ⟨0, ⟨false, some "a", none, 1, 1, 3⟩, 5, 100, 25⟩] [])).2 = .ok 8 ∧
    ∀ p ∈ [(⟨0, ⟨false, some "b", none, 1, 1, 7⟩, 1, 100, 25⟩ : Call), ⟨0, ⟨false, some "a", none, 1, 1, 3⟩, 5, 100, 25⟩],
      Alike p.wire ⟨false, some "a", none, 1, 1, 3⟩ → p.wire.rest = 3 := by
  refine ⟨by decide +kernel, ?_⟩
  intro p hp ha
  simp only [List.mem_cons, List.not_mem_nil, or_false] at hp
  rcases hp with rfl | rfl
  · rcases ha with ⟨_, h⟩ | ⟨h, _⟩ <;> simp at h
  · rfl

/-- C86 is false: a wire gets the factor of another wire of the same name asked before. -/
theorem wire_of_same_name : ∃ (factors : Factors) (p q : Call), p.wire.name ≠ none ∧ p.wire.name = q.wire.name ∧
    p.wire.rest ≠ q.wire.rest ∧ (turnLosses factors q (after factors [p] [])).2 ≠ fresh factors q :=
  ⟨byRest, ⟨0, ⟨false, some "a", none, 1, 1, 0⟩, 1, 100, 25⟩, ⟨0, ⟨false, some "a", none, 1, 1, 1⟩, 1, 100, 25⟩,
    by decide +kernel⟩

/-- C86 is false: a wire without name gets the factor of another of the same outer size, whatever is inside. -/
theorem wire_of_same_size : ∃ (factors : Factors) (p q : Call), p.wire.name = none ∧ q.wire.name = none ∧
    p.wire.rest ≠ q.wire.rest ∧ (turnLosses factors q (after factors [p] [])).2 ≠ fresh factors q :=
  ⟨byRest, ⟨0, ⟨false, none, none, 1, 1, 0⟩, 1, 100, 25⟩, ⟨0, ⟨false, none, some 1, 1, 1, 1⟩, 1, 100, 25⟩,
    by decide +kernel⟩

end Verif.WindingLosses
