import Verif.Patterns.Model
import Mathlib.Data.List.Nodup
import Mathlib.Data.List.Perm.Basic
import Mathlib.Tactic.Ring
import Mathlib.Tactic.Linarith

/-! # Lemmas on the orders of windings -/

namespace Verif.Patterns

open Verif.Filters (Outcome)

theorem bind_value {α β : Type} {o : Outcome α} {f : α → Outcome β} {b : β} :
    o.bind f = .value b ↔ ∃ a : α, o = .value a ∧ f a = .value b := by
  cases o <;> simp [Outcome.bind]

theorem bind_undefined {α β : Type} {o : Outcome α} {f : α → Outcome β} :
    o.bind f = .undefined ↔ o = .undefined ∨ ∃ a : α, o = .value a ∧ f a = .undefined := by
  cases o <;> simp [Outcome.bind]

/-! ## Sides -/

theorem sidesFrom_length (sideOf : ℕ → Option ℕ) : ∀ (left start : ℕ) {l : List ℕ}, sidesFrom sideOf start left = .value l → l.length = left
  | 0, _, l, h => by simp only [sidesFrom, Outcome.value.injEq] at h; subst h; rfl
  | left + 1, start, l, h => by
    simp only [sidesFrom, bind_value, Outcome.value.injEq] at h
    obtain ⟨_, _, r, hr, rfl⟩ := h
    simp [sidesFrom_length sideOf left (start + 1) hr]

theorem sidesFrom_defined (sideOf : ℕ → Option ℕ) : ∀ (left start : ℕ), sidesFrom sideOf start left ≠ .undefined
  | 0, _ => by simp [sidesFrom]
  | left + 1, start => by
    simp only [sidesFrom, ne_eq, bind_undefined, not_or]
    refine ⟨by cases sideOf start <;> simp [Outcome.take], ?_⟩
    rintro ⟨_, _, h⟩
    rcases h with h | ⟨_, _, h⟩
    · exact sidesFrom_defined sideOf left _ h
    · simp at h

theorem fillSides_length {sideOf : ℕ → Option ℕ} {windings : ℕ} {sides : Option (List ℕ)} {l : List ℕ} (h : fillSides sideOf windings sides = .value l) :
    windings ≤ l.length := by
  cases sides with
  | none => exact (sidesFrom_length _ _ _ h).ge
  | some s =>
    simp only [fillSides] at h
    split_ifs at h with hs
    · simp only [bind_value, Outcome.value.injEq] at h
      obtain ⟨r, hr, rfl⟩ := h
      rw [List.length_append, sidesFrom_length _ _ _ hr]; omega
    · simp only [Outcome.value.injEq] at h; subst h; omega

theorem fillSides_defined (sideOf : ℕ → Option ℕ) (windings : ℕ) (sides : Option (List ℕ)) : fillSides sideOf windings sides ≠ .undefined := by
  cases sides with
  | none => exact sidesFrom_defined _ _ _
  | some s =>
    simp only [fillSides]
    split_ifs
    · simp only [ne_eq, bind_undefined, not_or]
      exact ⟨sidesFrom_defined _ _ _, by simp⟩
    · simp

theorem used_spec : ∀ (l acc : List ℕ), acc.Nodup → (used acc l).Nodup ∧ ∀ s, s ∈ used acc l ↔ s ∈ acc ∨ s ∈ l
  | [], acc, h => ⟨h, by simp [used]⟩
  | a :: l, acc, h => by
    simp only [used]
    by_cases ha : a ∈ acc
    · rw [if_pos ha]
      obtain ⟨h1, h2⟩ := used_spec l acc h
      refine ⟨h1, fun s => ?_⟩
      rw [h2, List.mem_cons]
      constructor
      · rintro (h | h) <;> tauto
      · rintro (h | rfl | h) <;> tauto
    · rw [if_neg ha]
      obtain ⟨h1, h2⟩ := used_spec l (acc ++ [a]) (by
        rw [List.nodup_append]
        exact ⟨h, List.nodup_singleton a, fun x hx y hy => by rw [List.mem_singleton] at hy; subst hy; rintro rfl; exact ha hx⟩)
      refine ⟨h1, fun s => ?_⟩
      rw [h2, List.mem_append, List.mem_singleton, List.mem_cons, or_assoc]

/-! ## Permutations -/

theorem splitLast_spec (a : ℕ) : ∀ (l : List ℕ) {pre post : List ℕ} {b : ℕ}, splitLast a l = some (pre, b, post) → l = pre ++ b :: post
  | [], _, _, _, h => by simp [splitLast] at h
  | c :: l, pre, post, b, h => by
    simp only [splitLast] at h
    cases hl : splitLast a l with
    | some v =>
      obtain ⟨p, d, q⟩ := v
      rw [hl] at h
      simp only [Option.some.injEq, Prod.mk.injEq] at h
      obtain ⟨rfl, rfl, rfl⟩ := h
      rw [List.cons_append, ← splitLast_spec a l hl]
    | none =>
      rw [hl] at h
      by_cases hc : a < c
      · rw [if_pos hc] at h
        simp only [Option.some.injEq, Prod.mk.injEq] at h
        obtain ⟨rfl, rfl, rfl⟩ := h
        rfl
      · rw [if_neg hc] at h; simp at h

theorem nextPermutation_perm : ∀ (l : List ℕ) {l' : List ℕ}, nextPermutation l = some l' → l'.Perm l
  | [], _, h => by simp [nextPermutation] at h
  | a :: l, l', h => by
    simp only [nextPermutation] at h
    cases hn : nextPermutation l with
    | some t =>
      rw [hn] at h
      simp only [Option.some.injEq] at h
      subst h
      exact (nextPermutation_perm l hn).cons a
    | none =>
      rw [hn] at h
      cases hs : splitLast a l with
      | none => rw [hs] at h; simp at h
      | some v =>
        obtain ⟨p, b, q⟩ := v
        rw [hs] at h
        simp only [Option.some.injEq] at h
        subst h
        rw [splitLast_spec a l hs]
        have h1 : (b :: (p ++ a :: q).reverse).Perm (b :: (p ++ a :: q)) := (List.reverse_perm _).cons b
        have h2 : (b :: (p ++ a :: q)).Perm (b :: a :: (p ++ q)) := List.perm_middle.cons b
        have h3 : (b :: a :: (p ++ q)).Perm (a :: b :: (p ++ q)) := List.Perm.swap a b _
        have h4 : (a :: b :: (p ++ q)).Perm (a :: (p ++ b :: q)) := List.perm_middle.symm.cons a
        exact h1.trans (h2.trans (h3.trans h4))

theorem next_perm (l : List ℕ) : (next l).Perm l := by
  unfold next
  cases h : nextPermutation l with
  | none => exact List.reverse_perm l
  | some l' => exact nextPermutation_perm l h

/-- The pattern of an order of the sides has each winding once. -/
theorem patternOf_perm {requirement sides : List ℕ} {windings : ℕ} (hl : windings ≤ requirement.length) (hn : sides.Nodup)
    (hm : ∀ s ∈ requirement, s ∈ sides) : (patternOf requirement windings sides).Perm (List.range windings) := by
  have hw : ∀ s : ℕ, (windingsOf requirement windings s).Nodup := fun s => List.nodup_range.filter _
  rw [List.perm_ext_iff_of_nodup ?_ List.nodup_range]
  · intro w
    simp only [patternOf, List.mem_flatMap, windingsOf, List.mem_filter, List.mem_range, decide_eq_true_eq]
    constructor
    · rintro ⟨_, _, h, _⟩; exact h
    · intro h
      have : w < requirement.length := by omega
      exact ⟨requirement[w], hm _ (List.getElem_mem this), h, List.getElem?_eq_getElem this⟩
  · unfold patternOf
    rw [List.nodup_flatMap]
    refine ⟨fun s _ => hw s, ?_⟩
    refine hn.imp ?_
    intro s t hst
    simp only [List.disjoint_left, windingsOf, List.mem_filter, List.mem_range, decide_eq_true_eq, Function.onFun]
    rintro w ⟨_, h1⟩ ⟨_, h2⟩
    rw [h1] at h2
    exact hst (Option.some.inj h2)

/-- What the loop over orders adds: orders of the windings, and at least one, never more than the maximum. -/
theorem orders_spec {requirement : List ℕ} {windings : ℕ} (hl : windings ≤ requirement.length) :
    ∀ (left : ℕ) (sides : List ℕ) (acc : List (List ℕ)), sides.Nodup → (∀ s ∈ requirement, s ∈ sides) →
      (∀ p ∈ acc, p.Perm (List.range windings)) → acc.length < maximumCoilPattern →
      (∀ p ∈ orders requirement windings left sides acc, p.Perm (List.range windings)) ∧
        (orders requirement windings left sides acc).length = min maximumCoilPattern (acc.length + left)
  | 0, _, acc, _, _, ha, hlt => ⟨ha, by simp only [orders, Nat.add_zero]; omega⟩
  | left + 1, sides, acc, hn, hm, ha, hlt => by
    have ha' : ∀ p ∈ acc ++ [patternOf requirement windings sides], p.Perm (List.range windings) := by
      intro p hp
      rw [List.mem_append, List.mem_singleton] at hp
      rcases hp with hp | rfl
      · exact ha p hp
      · exact patternOf_perm hl hn hm
    have e : (acc ++ [patternOf requirement windings sides]).length = acc.length + 1 := by simp
    simp only [orders]
    by_cases h : maximumCoilPattern ≤ (acc ++ [patternOf requirement windings sides]).length
    · rw [if_pos h]
      exact ⟨ha', by rw [e] at h ⊢; omega⟩
    · rw [if_neg h]
      obtain ⟨h1, h2⟩ := orders_spec hl left (next sides) _ ((next_perm sides).nodup_iff.mpr hn)
        (fun s hs => (next_perm sides).mem_iff.mpr (hm s hs)) ha' (by omega)
      exact ⟨h1, by rw [h2, e]; omega⟩

/-- The loop only adds after what there is. -/
theorem orders_prefix (requirement : List ℕ) (windings : ℕ) : ∀ (left : ℕ) (sides : List ℕ) (acc : List (List ℕ)),
    acc <+: orders requirement windings left sides acc
  | 0, _, acc => List.prefix_refl _
  | left + 1, sides, acc => by
    simp only [orders]
    split_ifs
    · exact List.prefix_append _ _
    · exact (List.prefix_append _ _).trans (orders_prefix requirement windings left _ _)

theorem refill_perm (places : List ℕ) : ∀ (base vs : List ℕ), vs.length = (base.filter fun w : ℕ => w ∈ places).length →
    (refill places base vs).Perm ((base.filter fun w : ℕ => w ∉ places) ++ vs)
  | [], vs, h => by
    simp only [List.filter_nil, List.length_nil, List.length_eq_zero_iff] at h
    subst h; simp [refill]
  | w :: ws, [], h => by
    simp only [List.length_nil] at h
    have hn : ¬ w ∈ places := by
      intro hw
      rw [List.filter_cons_of_pos (by simpa using hw)] at h
      simp at h
    rw [List.filter_cons_of_neg (by simpa using hn)] at h
    have i := refill_perm places ws [] h
    simp only [refill]
    rw [List.filter_cons_of_pos (by simpa using hn), List.cons_append]
    exact i.cons w
  | w :: ws, v :: vs, h => by
    simp only [refill]
    by_cases hw : w ∈ places
    · rw [if_pos hw]
      rw [List.filter_cons_of_pos (by simpa using hw)] at h
      have i := refill_perm places ws vs (by simpa using h)
      rw [List.filter_cons_of_neg (by simpa using hw)]
      exact (i.cons v).trans List.perm_middle.symm
    · rw [if_neg hw]
      rw [List.filter_cons_of_neg (by simpa using hw)] at h
      have i := refill_perm places ws (v :: vs) h
      rw [List.filter_cons_of_pos (by simpa using hw), List.cons_append]
      exact i.cons w

theorem reversedSecondaries_perm (secondaries base : List ℕ) : (reversedSecondaries secondaries base).Perm base := by
  unfold reversedSecondaries
  refine (refill_perm secondaries base _ (by simp)).trans ?_
  refine (List.Perm.append_left _ (List.reverse_perm _)).trans ?_
  refine List.perm_append_comm.trans ?_
  have := List.filter_append_perm (fun w : ℕ => decide (w ∈ secondaries)) base
  refine List.Perm.trans ?_ this
  apply List.Perm.append_left
  apply List.Perm.of_eq
  apply List.filter_congr
  intro x _
  simp

theorem addNew_mem {ps : List (List ℕ)} {p q : List ℕ} (h : q ∈ addNew ps p) : q ∈ ps ∨ q = p := by
  unfold addNew at h
  split_ifs at h
  · exact .inl h
  · simpa using h

theorem addNew_length (ps : List (List ℕ)) (p : List ℕ) : ps.length ≤ (addNew ps p).length ∧ (addNew ps p).length ≤ ps.length + 1 := by
  unfold addNew
  split_ifs <;> simp

theorem addNew_sub {ps : List (List ℕ)} {p q : List ℕ} (h : q ∈ ps) : q ∈ addNew ps p := by
  unfold addNew
  split_ifs
  · exact h
  · exact List.mem_append_left _ h

theorem addNew_self (ps : List (List ℕ)) (p : List ℕ) : p ∈ addNew ps p := by
  unfold addNew
  split_ifs with h
  · exact h
  · simp

theorem secondariesOf_spec {requirement : List ℕ} {windings w : ℕ} (h : w ∈ secondariesOf requirement windings) : 1 ≤ w ∧ w < windings := by
  simp only [secondariesOf, List.mem_filter, List.mem_range, Bool.and_eq_true, decide_eq_true_eq] at h
  exact ⟨h.2.1, h.1⟩

theorem sandwich_perm {requirement : List ℕ} {s1 s2 : ℕ} (h : secondariesOf requirement 3 = [s1, s2]) : [s1, 0, s2].Perm (List.range 3) := by
  have hn : (secondariesOf requirement 3).Nodup := List.nodup_range.filter _
  have h1 := secondariesOf_spec (requirement := requirement) (windings := 3) (w := s1) (by rw [h]; simp)
  have h2 := secondariesOf_spec (requirement := requirement) (windings := 3) (w := s2) (by rw [h]; simp)
  rw [h] at hn
  have hne : s1 ≠ s2 := by
    intro e; subst e; simp at hn
  have : (s1 = 1 ∧ s2 = 2) ∨ (s1 = 2 ∧ s2 = 1) := by omega
  rcases this with ⟨rfl, rfl⟩ | ⟨rfl, rfl⟩ <;> decide

/-- The patterns `extras` starts from are still there, and what it adds are orders of the windings. -/
theorem extras_spec {requirement : List ℕ} {windings : ℕ} {ps : List (List ℕ)} (hp : ∀ p ∈ ps, p.Perm (List.range windings))
    (hl : ps.length ≤ maximumCoilPattern) :
    (∀ p ∈ extras requirement windings ps, p.Perm (List.range windings)) ∧ (extras requirement windings ps).length ≤ maximumCoilPattern ∧
      ps.length ≤ (extras requirement windings ps).length ∧ (∀ p ∈ ps, p ∈ extras requirement windings ps) := by
  unfold extras
  by_cases h : 3 ≤ windings ∧ ps.length < maximumCoilPattern
  swap
  · rw [if_neg h]; exact ⟨hp, hl, le_refl _, fun _ h => h⟩
  rw [if_pos h]
  have h1 : (∀ p ∈ withReversed (secondariesOf requirement windings) ps, p.Perm (List.range windings)) ∧
      (withReversed (secondariesOf requirement windings) ps).length ≤ ps.length + 1 ∧
      ps.length ≤ (withReversed (secondariesOf requirement windings) ps).length ∧
      ∀ p ∈ ps, p ∈ withReversed (secondariesOf requirement windings) ps := by
    cases ps with
    | nil => exact ⟨hp, by simp [withReversed], by simp [withReversed], fun _ h => h⟩
    | cons base rest =>
      simp only [withReversed]
      split_ifs
      · refine ⟨fun p hm => ?_, (addNew_length _ _).2, (addNew_length _ _).1, fun p hm => addNew_sub hm⟩
        rcases addNew_mem hm with hm | rfl
        · exact hp p hm
        · exact (reversedSecondaries_perm _ _).trans (hp base (by simp))
      · exact ⟨hp, by simp, by simp, fun _ h => h⟩
  obtain ⟨a1, a2, a3, a4⟩ := h1
  generalize withReversed (secondariesOf requirement windings) ps = ps1 at a1 a2 a3 a4 ⊢
  have hfin : (∀ p ∈ ps1, p.Perm (List.range windings)) ∧ ps1.length ≤ maximumCoilPattern ∧ ps.length ≤ ps1.length ∧ ∀ p ∈ ps, p ∈ ps1 :=
    ⟨a1, by omega, a3, a4⟩
  unfold withSandwich
  split
  · rename_i s1 s2 hs
    split_ifs with hc
    · obtain ⟨rfl, hlt⟩ := hc
      refine ⟨fun p hm => ?_, ?_, le_trans a3 (addNew_length _ _).1, fun p hm => addNew_sub (a4 p hm)⟩
      · rcases addNew_mem hm with hm | rfl
        · exact a1 p hm
        · exact sandwich_perm hs
      · have := (addNew_length ps1 [s1, 0, s2]).2; omega
    · exact hfin
  · exact hfin

theorem reversals_spec {windings : ℕ} : ∀ (base ps : List (List ℕ)), (∀ p ∈ base, p.Perm (List.range windings)) →
    (∀ p ∈ ps, p.Perm (List.range windings)) → ps.length ≤ maximumCoilPattern →
    (∀ p ∈ reversals base ps, p.Perm (List.range windings)) ∧ (reversals base ps).length ≤ maximumCoilPattern ∧ (∀ p ∈ ps, p ∈ reversals base ps) ∧
      ps.length ≤ (reversals base ps).length
  | [], ps, _, hp, hl => ⟨hp, hl, fun _ h => h, le_refl _⟩
  | b :: base, ps, hb, hp, hl => by
    simp only [reversals]
    split_ifs with h
    · obtain ⟨i1, i2, i3, i4⟩ := reversals_spec base (addNew ps b.reverse) (fun p hm => hb p (List.mem_cons_of_mem _ hm)) (fun p hm => by
        rcases addNew_mem hm with hm | rfl
        · exact hp p hm
        · exact (List.reverse_perm b).trans (hb b (by simp))) (by have := (addNew_length ps b.reverse).2; omega)
      exact ⟨i1, i2, fun p hm => i3 p (addNew_sub hm), le_trans (addNew_length _ _).1 i4⟩
    · exact ⟨hp, hl, fun _ h => h, le_refl _⟩

end Verif.Patterns
