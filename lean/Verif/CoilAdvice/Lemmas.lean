import Verif.CoilAdvice.Model
import Mathlib.Algebra.BigOperators.Group.Finset.Piecewise
import Mathlib.Algebra.BigOperators.Field
import Mathlib.Algebra.BigOperators.Group.List.Basic
import Mathlib.Algebra.Order.BigOperators.Group.List
import Mathlib.Tactic.FieldSimp
import Mathlib.Tactic.Linarith
import Mathlib.Tactic.Ring
import Mathlib.Tactic.Positivity

/-! Lemmas about the coil adviser. -/

set_option linter.unusedSectionVars false
set_option linter.unusedSimpArgs false
set_option linter.unusedVariables false

namespace Verif.CoilAdvice

variable {K : Type}

theorem lowestNamed_le (p : String) (ws : List (Winding K)) (j m : Nat) : lowestNamed p ws j m ≤ m := by
  induction ws generalizing j m with
  | nil => simp [lowestNamed]
  | cons w ws ih =>
    simp only [lowestNamed]
    refine (ih _ _).trans ?_
    split <;> omega

theorem lowestNamed_le_of (p : String) (ws : List (Winding K)) (j m k : Nat) (w : Winding K) (h : ws[k]? = some w)
    (hn : w.name = p) : lowestNamed p ws j m ≤ j + k := by
  induction ws generalizing j m k with
  | nil => simp at h
  | cons v ws ih =>
    simp only [lowestNamed]
    cases k with
    | zero =>
      simp only [List.getElem?_cons_zero, Option.some.injEq] at h
      subst h
      refine (lowestNamed_le _ _ _ _).trans ?_
      simp only [hn, true_and]
      split <;> omega
    | succ k =>
      have := ih (j + 1) (if v.name = p ∧ j < m then j else m) k (by simpa using h)
      omega

theorem lowestNamed_mem (p : String) (ws : List (Winding K)) (j m : Nat) :
    lowestNamed p ws j m = m ∨ ∃ k w, ws[k]? = some w ∧ w.name = p ∧ lowestNamed p ws j m = j + k := by
  induction ws generalizing j m with
  | nil => left; rfl
  | cons v ws ih =>
    simp only [lowestNamed]
    rcases ih (j + 1) (if v.name = p ∧ j < m then j else m) with h | ⟨k, w, h1, h2, h3⟩
    · rw [h]
      by_cases hc : v.name = p ∧ j < m
      · rw [if_pos hc]
        exact Or.inr ⟨0, v, rfl, hc.1, rfl⟩
      · rw [if_neg hc]; exact Or.inl rfl
    · exact Or.inr ⟨k + 1, w, by simpa using h1, h2, by omega⟩

theorem foldLowest_le (ws : List (Winding K)) (l : List String) (m : Nat) :
    l.foldl (fun m p => lowestNamed p ws 0 m) m ≤ m := by
  induction l generalizing m with
  | nil => simp
  | cons p l ih => exact (ih _).trans (lowestNamed_le _ _ _ _)

theorem foldLowest_le_of (ws : List (Winding K)) (l : List String) (m k : Nat) (w : Winding K) (h : ws[k]? = some w)
    (hn : w.name ∈ l) : l.foldl (fun m p => lowestNamed p ws 0 m) m ≤ k := by
  induction l generalizing m with
  | nil => simp at hn
  | cons p l ih =>
    rw [List.foldl_cons]
    rcases List.mem_cons.1 hn with h1 | h1
    · refine (foldLowest_le _ _ _).trans ?_
      simpa using lowestNamed_le_of p ws 0 m k w h h1
    · exact ih _ h1

theorem foldLowest_mem (ws : List (Winding K)) (l : List String) (m : Nat) :
    l.foldl (fun m p => lowestNamed p ws 0 m) m = m ∨
      ∃ k w, ws[k]? = some w ∧ w.name ∈ l ∧ l.foldl (fun m p => lowestNamed p ws 0 m) m = k := by
  induction l generalizing m with
  | nil => left; rfl
  | cons p l ih =>
    rw [List.foldl_cons]
    rcases ih (lowestNamed p ws 0 m) with h | ⟨k, w, h1, h2, h3⟩
    · rw [h]
      rcases lowestNamed_mem p ws 0 m with h' | ⟨k, w, h1, h2, h3⟩
      · exact Or.inl h'
      · exact Or.inr ⟨k, w, h1, by simp [h2], by omega⟩
    · exact Or.inr ⟨k, w, h1, List.mem_cons_of_mem _ h2, h3⟩

theorem representatives_length (ws : List (Winding K)) : (representatives ws).length = ws.length := by
  simp [representatives]

theorem representatives_get (ws : List (Winding K)) (i : Nat) (w : Winding K) (h : ws[i]? = some w) :
    (representatives ws)[i]? = some (representative ws w i) := by
  simp [representatives, List.getElem?_map, List.getElem?_zipIdx, h]

section
variable [Field K] [LinearOrder K] [IsStrictOrderedRing K]

/-- Dividing what belongs to a group among its members leaves the sum over the groups. -/
theorem sum_shared (reps : List Nat) (g : Nat → K) :
    (reps.map fun r => g r / (reps.count r : K)).sum = ∑ r ∈ reps.toFinset, g r := by
  rw [Finset.sum_list_map_count]
  refine Finset.sum_congr rfl fun r hr => ?_
  have : (0 : K) < (reps.count r : K) := by
    exact_mod_cast List.count_pos_iff.2 (List.mem_toFinset.1 hr)
  rw [nsmul_eq_mul]
  field_simp

theorem sum_members (reps : List Nat) (g : Nat → K) (r : Nat) (hr : r ∈ reps) :
    ((reps.filter fun x => x = r).map fun x => g x / (reps.count x : K)).sum = g r := by
  have h1 : (reps.filter fun x => x = r) = List.replicate (reps.count r) r := by
    exact List.filter_eq r
  have : (0 : K) < (reps.count r : K) := by exact_mod_cast List.count_pos_iff.2 hr
  rw [h1]
  simp only [List.map_replicate, List.sum_replicate, nsmul_eq_mul]
  field_simp

theorem groupArea_sum (reps : List Nat) (as : List K) (h : reps.length = as.length) :
    ∑ r ∈ reps.toFinset, groupArea reps as r = as.sum := by
  have key : ∀ (l : List (Nat × K)) (s : Finset Nat), (∀ x ∈ l, x.1 ∈ s) →
      ∑ r ∈ s, ((l.filter fun x => x.1 = r).map Prod.snd).sum = (l.map Prod.snd).sum := by
    intro l s hs
    induction l with
    | nil => simp
    | cons x l ih =>
      have ih := ih (fun y hy => hs y (List.mem_cons_of_mem _ hy))
      have : ∀ r ∈ s, (((x :: l).filter fun y => y.1 = r).map Prod.snd).sum =
          (if r = x.1 then x.2 else 0) + ((l.filter fun y => y.1 = r).map Prod.snd).sum := by
        intro r _
        by_cases hr : x.1 = r
        · simp [List.filter_cons, hr]
        · simp [List.filter_cons, hr, Ne.symm hr, eq_comm]
      rw [Finset.sum_congr rfl this, Finset.sum_add_distrib, ih]
      rw [Finset.sum_ite_eq', if_pos (hs x (List.mem_cons_self ..))]
      simp
  have h2 := key (reps.zip as) reps.toFinset (fun x hx => List.mem_toFinset.2 (List.of_mem_zip hx).1)
  rw [List.map_snd_zip (by omega)] at h2
  exact h2

end
end Verif.CoilAdvice
