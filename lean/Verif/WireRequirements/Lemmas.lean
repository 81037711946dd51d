import Verif.WireRequirements.Model

/-! Helper lemmas for the insulation requirements for wires. -/

set_option linter.unusedSectionVars false
set_option linter.unusedSimpArgs false

namespace Verif.WireRequirements

open Verif.SectionInterface (Cls Res)

variable {K : Type} [Zero K]

theorem removeNeedingMargin_mem {pattern : List Nat} {rep : Nat} {all r : List (List (Req K))}
    (h : removeNeedingMargin pattern rep all = some r) (c : List (Req K)) :
    c ∈ r ↔ c ∈ all ∧ needsMargin c pattern rep = some false := by
  induction all generalizing r with
  | nil => simp only [removeNeedingMargin, Option.some.injEq] at h; subst h; simp
  | cons a l ih =>
    simp only [removeNeedingMargin] at h
    cases hn : needsMargin a pattern rep with
    | none => rw [hn] at h; cases h
    | some b =>
      rw [hn] at h
      simp only at h
      cases hr : removeNeedingMargin pattern rep l with
      | none => rw [hr] at h; cases h
      | some r' =>
        rw [hr] at h
        simp only [Option.some.injEq] at h
        have ih' := ih hr
        cases b with
        | true =>
          simp only [if_true] at h
          subst h
          rw [ih', List.mem_cons]
          constructor
          · rintro ⟨h1, h2⟩; exact ⟨Or.inr h1, h2⟩
          · rintro ⟨rfl | h1, h2⟩
            · rw [hn] at h2; cases h2
            · exact ⟨h1, h2⟩
        | false =>
          simp only [Bool.false_eq_true, if_false] at h
          subst h
          rw [List.mem_cons, ih', List.mem_cons]
          constructor
          · rintro (rfl | ⟨h1, h2⟩)
            · exact ⟨Or.inl rfl, hn⟩
            · exact ⟨Or.inr h1, h2⟩
          · rintro ⟨rfl | h1, h2⟩
            · exact Or.inl rfl
            · exact Or.inr ⟨h1, h2⟩

/-- Two windings of a combination are in range and need no margin between them. -/
def PairOk (combo : List (Req K)) (i j : Nat) : Prop :=
  ∃ a b, combo[i]? = some a ∧ combo[j]? = some b ∧ pairNeedsMargin a b = false

theorem needsMarginFrom_false {combo : List (Req K)} {first rep : Nat} {l : List Nat}
    (h : needsMarginFrom combo first rep l = some false) :
    l.IsChain (PairOk combo) ∧ (rep ≠ 0 → ∀ x, l.getLast? = some x → PairOk combo x first) := by
  induction l with
  | nil => simp
  | cons i l ih =>
    cases l with
    | nil =>
      refine ⟨by simp, ?_⟩
      intro hr x hx
      simp only [List.getLast?_singleton, Option.some.injEq] at hx
      subst hx
      simp only [needsMarginFrom] at h
      rw [if_neg hr] at h
      cases ha : combo[i]? with
      | none => rw [ha] at h; cases h
      | some a =>
        cases hb : combo[first]? with
        | none => rw [ha, hb] at h; cases h
        | some b =>
          rw [ha, hb] at h
          simp only [Option.some.injEq] at h
          exact ⟨a, b, ha, hb, h⟩
    | cons j l =>
      simp only [needsMarginFrom] at h
      cases ha : combo[i]? with
      | none => rw [ha] at h; cases h
      | some a =>
        cases hb : combo[j]? with
        | none => rw [ha, hb] at h; cases h
        | some b =>
          rw [ha, hb] at h
          simp only at h
          split at h
          · simp at h
          · rename_i hp
            have ⟨h1, h2⟩ := ih h
            refine ⟨List.isChain_cons_cons.mpr ⟨⟨a, b, ha, hb, by simpa using hp⟩, h1⟩, ?_⟩
            intro hr x hx
            exact h2 hr x (by simpa using hx)

/-- Repeating a chain whose ends fit together gives a chain. -/
theorem isChain_replicate {R : Nat → Nat → Prop} {p : List Nat} (h : p.IsChain R)
    (hw : ∀ x y, p.getLast? = some x → p.head? = some y → R x y) (n : Nat) :
    (List.replicate n p).flatten.IsChain R := by
  induction n with
  | zero => simp
  | succ n ih =>
    rw [List.replicate_succ, List.flatten_cons, List.isChain_append]
    refine ⟨h, ih, ?_⟩
    intro x hx y hy
    refine hw x y hx ?_
    cases n with
    | zero => simp at hy
    | succ n =>
      rw [List.replicate_succ, List.flatten_cons] at hy
      cases p with
      | nil => simp at hx
      | cons a p => simpa using hy

theorem mem_distinct (l acc : List Nat) (s : Nat) : s ∈ distinct l acc ↔ s ∈ l ∨ s ∈ acc := by
  induction l generalizing acc with
  | nil => simp [distinct]
  | cons a l ih =>
    simp only [distinct, ih]
    split
    · rename_i h
      constructor
      · rintro (h1 | h1)
        · exact Or.inl (List.mem_cons_of_mem _ h1)
        · exact Or.inr h1
      · rintro (h1 | h1)
        · rcases List.mem_cons.mp h1 with rfl | h1
          · exact Or.inr h
          · exact Or.inl h1
        · exact Or.inr h1
    · simp only [List.mem_append, List.mem_singleton, List.mem_cons]
      tauto

theorem distinct_nodup (l acc : List Nat) (h : acc.Nodup) : (distinct l acc).Nodup := by
  induction l generalizing acc with
  | nil => exact h
  | cons a l ih =>
    simp only [distinct]
    apply ih
    split
    · exact h
    · rename_i hn
      rw [List.nodup_append]
      refine ⟨h, by simp, ?_⟩
      intro x hx y hy
      simp only [List.mem_singleton] at hy
      rintro rfl
      exact hn (hy ▸ hx)

theorem fillSides_length (w : Nat) (hw : 1 ≤ w) (s : Option (List Nat)) :
    (fillSides w s).length = max w ((s.getD []).length) := by
  cases s with
  | none => simp [fillSides, hw]
  | some l => simp [fillSides]; omega

/-- Shape of every combination for a non functional type: at most one side is left bare, the others get one and
the same requirement. -/
theorem combosFor_shape {cls : Cls} {pw used : List Nat} {v vb : K} {fiw : Bool} {c : List (Req K)}
    (h : c ∈ combosFor cls pw used v vb fiw) :
    (∃ s, c = oneSideBare pw s (reinforcedReq v fiw) ∧ (cls = .reinforced ∨ cls = .double)) ∨
    (c = pw.map (fun _ => basicReq vb fiw) ∧ cls ≠ .reinforced) ∨
    (∃ s, c = oneSideBare pw s (basicReq vb fiw) ∧ cls ≠ .reinforced) := by
  unfold combosFor at h
  rcases List.mem_append.mp h with h | h
  · split at h
    · rename_i hc
      obtain ⟨s, _, rfl⟩ := List.mem_map.mp h
      exact Or.inl ⟨s, rfl, hc⟩
    · cases h
  · split at h
    · rename_i hc
      rcases List.mem_append.mp h with h | h
      · split at h
        · simp only [List.mem_singleton] at h
          exact Or.inr (Or.inl ⟨h, hc⟩)
        · cases h
      · split at h
        · obtain ⟨s, _, rfl⟩ := List.mem_map.mp h
          exact Or.inr (Or.inr ⟨s, rfl, hc⟩)
        · cases h
    · cases h

end Verif.WireRequirements
