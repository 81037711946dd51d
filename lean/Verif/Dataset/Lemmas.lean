import Verif.Dataset.Model
import Verif.Dataset.Seed

/-! # Lemmas on the candidates of the core adviser -/

namespace Verif.Dataset

set_option linter.unusedSimpArgs false
set_option linter.unusedVariables false
set_option linter.unusedSectionVars false

theorem marks_length : ∀ {l : List Char}, marks l = true → 9 ≤ l.length := by
  intro l h
  unfold marks at h
  split at h
  · simp
  · cases h

/-- A match does not reach into the mark of a stack put after a name. -/
theorem marks_append (c : Char) (cs : List Char) (k : Char) (hk : k ≠ 's') :
    marks (c :: cs ++ [' ', k, ' ', 's', 't', 'a', 'c', 'k', 's']) = marks (c :: cs) := by
  rcases cs with _ | ⟨c1, cs⟩
  · have : marks [c] = false := by unfold marks; split <;> simp_all
    rw [this]; unfold marks; split <;> simp_all
  rcases cs with _ | ⟨c2, cs⟩
  · have : marks [c, c1] = false := by unfold marks; split <;> simp_all
    rw [this]; unfold marks; split <;> simp_all
  rcases cs with _ | ⟨c3, cs⟩
  · have : marks [c, c1, c2] = false := by unfold marks; split <;> simp_all
    rw [this]; unfold marks; split <;> simp_all
  rcases cs with _ | ⟨c4, cs⟩
  · have : marks [c, c1, c2, c3] = false := by unfold marks; split <;> simp_all
    rw [this]; unfold marks; split <;> simp_all
  rcases cs with _ | ⟨c5, cs⟩
  · have : marks [c, c1, c2, c3, c4] = false := by unfold marks; split <;> simp_all
    rw [this]; unfold marks; split <;> simp_all
  rcases cs with _ | ⟨c6, cs⟩
  · have : marks [c, c1, c2, c3, c4, c5] = false := by unfold marks; split <;> simp_all
    rw [this]; unfold marks; split <;> simp_all
  rcases cs with _ | ⟨c7, cs⟩
  · have : marks [c, c1, c2, c3, c4, c5, c6] = false := by unfold marks; split <;> simp_all
    rw [this]; unfold marks; split <;> simp_all
  rcases cs with _ | ⟨c8, cs⟩
  · have : marks [c, c1, c2, c3, c4, c5, c6, c7] = false := by unfold marks; split <;> simp_all
    rw [this]; unfold marks; split <;> simp_all
  · simp only [List.cons_append]
    unfold marks
    split <;> split <;> simp_all

theorem strip_mark (k : Char) (hk : k.isDigit = true) :
    strip 0 [' ', k, ' ', 's', 't', 'a', 'c', 'k', 's'] = [] := by
  simp [strip, marks, hk]

/-- The mark of a stack is dropped from the end of any name. -/
theorem strip_append (k : Char) (hk : k.isDigit = true) : ∀ (cs : List Char) (n : Nat), n ≤ cs.length →
    strip n (cs ++ [' ', k, ' ', 's', 't', 'a', 'c', 'k', 's']) = strip n cs := by
  intro cs
  induction cs with
  | nil =>
    intro n hn
    have hn' : n = 0 := by simpa using hn
    subst hn'
    rw [List.nil_append, strip_mark k hk, strip]
  | cons c cs ih =>
    intro n hn
    cases n with
    | succ n =>
      rw [List.cons_append, strip, strip]
      exact ih n (by simpa using hn)
    | zero =>
      have hne : k ≠ 's' := by rintro rfl; revert hk; decide
      have hm := marks_append c cs k hne
      rw [List.cons_append] at hm ⊢
      rw [strip, strip, hm]
      by_cases h : marks (c :: cs) = true
      · rw [if_pos h, if_pos h]
        have := marks_length h
        exact ih 8 (by simp at this; omega)
      · rw [if_neg h, if_neg h, ih 0 (Nat.zero_le _)]

theorem strip_clean : ∀ (cs : List Char),
    (∀ (a b : List Char) (d : Char), d.isDigit = true → cs ≠ a ++ [' ', d, ' ', 's', 't', 'a', 'c', 'k', 's'] ++ b) →
    strip 0 cs = cs := by
  intro cs
  induction cs with
  | nil => intro _; rw [strip]
  | cons c cs ih =>
    intro h
    have hm : marks (c :: cs) = false := by
      rw [Bool.eq_false_iff]
      intro hm
      unfold marks at hm
      split at hm
      · rename_i d rest heq
        exact h [] rest d hm (by simpa using heq)
      · cases hm
    rw [strip, hm]
    simp only [Bool.false_eq_true, if_false]
    congr 1
    apply ih
    intro a b d hd heq
    exact h (c :: a) b d hd (by simp [heq])

theorem digit_suffix : ∀ k ∈ stackNumbers, ∃ d : Char, d.isDigit = true ∧
    (suffix k).toList = [' ', d, ' ', 's', 't', 'a', 'c', 'k', 's'] := by
  have h : stackNumbers = [2, 3, 4] := by decide
  rw [h]
  intro k hk
  simp only [List.mem_cons, List.not_mem_nil, or_false] at hk
  rcases hk with rfl | rfl | rfl
  · exact ⟨'2', by decide, by decide⟩
  · exact ⟨'3', by decide, by decide⟩
  · exact ⟨'4', by decide, by decide⟩

theorem stripped_suffix (s : String) (k : Nat) (hk : k ∈ stackNumbers) : stripped (s ++ suffix k) = stripped s := by
  obtain ⟨d, hd, h⟩ := digit_suffix k hk
  unfold stripped
  rw [String.toList_append, h, strip_append d hd _ 0 (Nat.zero_le _)]

theorem restack_key : ∀ (ks : List Nat) (p : Part), (restack p ks).2.key = p.key := by
  intro ks
  induction ks with
  | nil => intro p; rfl
  | cons k ks ih => intro p; rw [restack]; exact ih (restacked p k)

theorem restack_entries : ∀ (ks : List Nat) (p : Part) (e : Entry), e ∈ (restack p ks).1 →
    e.core.key = p.key ∧ e.core.count ∈ ks := by
  intro ks
  induction ks with
  | nil => intro p e h; simp [restack] at h
  | cons k ks ih =>
    intro p e h
    rw [restack] at h
    rcases List.mem_cons.mp h with rfl | h
    · exact ⟨rfl, List.mem_cons_self ..⟩
    · obtain ⟨h1, h2⟩ := ih (restacked p k) e h
      exact ⟨h1, List.mem_cons_of_mem _ h2⟩

theorem restack_last (p : Part) : (restack p stackNumbers).2.count = 4 := by
  have h : stackNumbers = [2, 3, 4] := by decide
  rw [h]; rfl

/-- The stacks of a core whose name holds no mark. -/
theorem restack_named (p : Part) (base : String) (h : stripped (named p) = base) (hb : stripped base = base) :
    (restack p stackNumbers).1.map (·.reference) =
      [some (base ++ suffix 2), some (base ++ suffix 3), some (base ++ suffix 4)] ∧
    (restack p stackNumbers).2.name = some (base ++ suffix 4) := by
  have hs : stackNumbers = [2, 3, 4] := by decide
  have h2 : (2 : Nat) ∈ stackNumbers := by decide
  have h3 : (3 : Nat) ∈ stackNumbers := by decide
  have e2 := stripped_suffix base 2 h2
  have e3 := stripped_suffix base 3 h3
  rw [hs]
  simp only [restack, restacked, named, Option.getD_some, List.map_cons, List.map_nil] at *
  rw [h, e2, hb, e3, hb]
  exact ⟨rfl, rfl⟩

theorem createOne_plain (job : Job) (p : Part) : createOne job false p =
    (if admitted job p then [⟨some (named p), p⟩] else [], p) := by
  unfold createOne
  by_cases h : admitted job p = true
  · simp [h]
  · simp [h]

theorem create_plain_cores (job : Job) (cores : List Part) : (create job false cores).2 = cores := by
  unfold create
  simp [createOne_plain]

theorem expandOne_key (job : Job) (p : Part) : (expandOne job p).2.key = p.key := by
  unfold expandOne
  split
  · exact restack_key _ _
  · rfl

/-- Erasing the indexes recorded by the loop, from the last, leaves what was sized. -/
theorem erase_loop {E : Type} (size : E → Sizing E) (keep : E → Option E)
    (hk : ∀ x, keep x = match size x with | .sized y => some y | _ => none) :
    ∀ (xs : List E) (i : Nat) (ys : List E) (is : List Nat), sizeLoop size i xs = .ok (ys, is) →
      ∀ pre : List E, pre.length = i → eraseAll (pre ++ ys) is = pre ++ xs.filterMap keep := by
  intro xs
  induction xs with
  | nil =>
    intro i ys is h pre hp
    simp only [sizeLoop] at h
    cases h
    rfl
  | cons x xs ih =>
    intro i ys is h pre hp
    rw [sizeLoop] at h
    have hkx := hk x
    cases hx : size x with
    | foreign => rw [hx] at h; cases h
    | sized y =>
      rw [hx] at h hkx
      simp only at h hkx
      cases hl : sizeLoop size (i + 1) xs with
      | error r => rw [hl] at h; cases h
      | ok r =>
        obtain ⟨zs, js⟩ := r
        rw [hl] at h
        cases h
        have := ih (i + 1) zs _ hl (pre ++ [y]) (by simp [hp])
        rw [List.append_assoc] at this
        rw [List.filterMap_cons, hkx]
        simpa using this
    | dropped =>
      rw [hx] at h hkx
      simp only at h hkx
      cases hl : sizeLoop size (i + 1) xs with
      | error r => rw [hl] at h; cases h
      | ok r =>
        obtain ⟨zs, js⟩ := r
        rw [hl] at h
        cases h
        have := ih (i + 1) zs js hl (pre ++ [x]) (by simp [hp])
        rw [List.append_assoc] at this
        rw [List.filterMap_cons, hkx]
        simp only [eraseAll, List.foldr_cons] at this ⊢
        rw [show pre ++ x :: zs = pre ++ ([x] ++ zs) by simp, this, List.append_assoc,
          List.eraseIdx_append_of_length_le (by omega), hp]
        simp

theorem loop_ok {E : Type} (size : E → Sizing E) : ∀ (xs : List E) (i : Nat), (∀ x ∈ xs, size x ≠ .foreign) →
    ∃ r : List E × List Nat, sizeLoop size i xs = .ok r := by
  intro xs
  induction xs with
  | nil => intro i _; exact ⟨([], []), rfl⟩
  | cons x xs ih =>
    intro i h
    obtain ⟨⟨ys, is⟩, hr⟩ := ih (i + 1) (fun y hy => h y (List.mem_cons_of_mem _ hy))
    have hx := h x (List.mem_cons_self ..)
    rw [sizeLoop]
    cases hs : size x with
    | foreign => exact absurd hs hx
    | sized y => simp only [hr]; exact ⟨_, rfl⟩
    | dropped => simp only [hr]; exact ⟨_, rfl⟩

end Verif.Dataset
