import Verif.Thermal.Spec
import Mathlib.Algebra.BigOperators.Field
import Mathlib.Algebra.Order.BigOperators.Ring.Finset
import Mathlib.Tactic.Linarith
import Mathlib.Tactic.Ring
import Mathlib.Tactic.FieldSimp
import Mathlib.Tactic.Positivity
import Mathlib.Tactic.LinearCombination
import Mathlib.Tactic.NormNum
import Mathlib.Data.Fintype.Basic
import Mathlib.Order.Lattice

/-! # Helper lemmas: elimination, balances and bounds -/

set_option linter.unusedSectionVars false
set_option linter.unusedSimpArgs false

namespace Verif.Thermal

open Finset

variable {K : Type} [Field K] [LinearOrder K] [IsStrictOrderedRing K] {n : Nat}

/-- Left hand sides. -/
def linked (a : Mat n K) (x : Vec n K) (i : Fin n) : K := ∑ j, a i j * x j

/-! ## Elimination -/

theorem foldl_largest (a : Mat n K) (c : Fin n) (l : List (Fin n)) (best : Fin n) (hb : c ≤ best) :
    let r := l.foldl (fun best r => if c < r ∧ |a r c| > |a best c| then r else best) best
    c ≤ r ∧ |a best c| ≤ |a r c| ∧ ∀ i ∈ l, c < i → |a i c| ≤ |a r c| := by
  induction l generalizing best with
  | nil => exact ⟨hb, le_refl _, by simp⟩
  | cons i l ih =>
    simp only [List.foldl_cons]
    by_cases h : c < i ∧ |a i c| > |a best c|
    · rw [if_pos h]
      obtain ⟨h1, h2, h3⟩ := ih i h.1.le
      refine ⟨h1, h.2.le.trans h2, fun j hj hcj => ?_⟩
      rcases List.mem_cons.mp hj with rfl | hj
      · exact h2
      · exact h3 j hj hcj
    · rw [if_neg h]
      obtain ⟨h1, h2, h3⟩ := ih best hb
      refine ⟨h1, h2, fun j hj hcj => ?_⟩
      rcases List.mem_cons.mp hj with rfl | hj
      · have : ¬ |a j c| > |a best c| := fun hh => h ⟨hcj, hh⟩
        exact (not_lt.mp this).trans h2
      · exact h3 j hj hcj

theorem largest_spec (a : Mat n K) (c : Fin n) : c ≤ largest a c ∧ ∀ i, c ≤ i → |a i c| ≤ |a (largest a c) c| := by
  obtain ⟨h1, h2, h3⟩ := foldl_largest a c (List.finRange n) c (le_refl c)
  refine ⟨h1, fun i hi => ?_⟩
  rcases eq_or_lt_of_le hi with rfl | hi
  · exact h2
  · exact h3 i (List.mem_finRange i) hi

theorem tiny_pos : (0 : K) < tiny := by unfold tiny; positivity

theorem linked_swap (a : Mat n K) (p q : Fin n) (x : Vec n K) (i : Fin n) :
    linked (swapRows a p q) x i = if i = p then linked a x q else if i = q then linked a x p else linked a x i := by
  unfold linked swapRows
  split
  · rfl
  · split <;> rfl

/-- Rows from a column on are zero before the columns done. -/
def Upper (k : Nat) (a : Mat n K) : Prop := ∀ i j : Fin n, j.val < k → j < i → a i j = 0

/-- The pivots of the columns done are not tiny. -/
def Pivots (k : Nat) (a : Mat n K) : Prop := ∀ i : Fin n, i.val < k → tiny ≤ |a i i|

theorem linked_clear {c : Fin n} {s : Eqs n K} (hu : Upper c.val s.a) (x : Vec n K) (i : Fin n) :
    linked (clearBelow c s).a x i = if c < i then linked s.a x i - s.a i c / s.a c c * linked s.a x c else linked s.a x i := by
  unfold linked clearBelow
  by_cases h : c < i
  · rw [if_pos h, Finset.mul_sum, ← Finset.sum_sub_distrib]
    refine Finset.sum_congr rfl fun j _ => ?_
    by_cases hj : c ≤ j
    · simp only [h, hj, and_self, if_true]; ring
    · have h0 : s.a c j = 0 := hu c j (not_le.mp hj) (not_le.mp hj)
      simp only [hj, and_false, if_false]
      rw [h0]; ring
  · rw [if_neg h]
    refine Finset.sum_congr rfl fun j _ => ?_
    simp [h]

/-- The state after some columns says the same of the unknowns as the first, and leaves small what is small. -/
structure State (a₀ : Mat n K) (b₀ : Vec n K) (k : Nat) (s : Eqs n K) : Prop where
  upper : Upper k s.a
  pivots : Pivots k s.a
  same : ∀ x, (∀ i, linked s.a x i = s.b i) ↔ ∀ i, linked a₀ x i = b₀ i
  small : ∀ (x : Vec n K) (d : K), 0 < d → (∀ i : Fin n, i.val < k → linked s.a x i = 0) →
    (∀ i : Fin n, k ≤ i.val → |linked s.a x i| < d) → ∀ i, |linked a₀ x i| < d

theorem state_zero (a : Mat n K) (b : Vec n K) : State a b 0 ⟨a, b⟩ where
  upper := fun i j h => by omega
  pivots := fun i h => by omega
  same := fun _ => Iff.rfl
  small := fun x d _ _ h i => h i (Nat.zero_le _)

theorem state_step {a₀ : Mat n K} {b₀ : Vec n K} {c : Fin n} {s s' : Eqs n K} (hs : State a₀ b₀ c.val s)
    (h : columnStep c s = some s') : State a₀ b₀ (c.val + 1) s' := by
  unfold columnStep at h
  simp only at h
  obtain ⟨hle, _⟩ := largest_spec s.a c
  generalize largest s.a c = p at h hle
  split at h
  · simp at h
  rename_i hp
  simp only [Option.some.injEq] at h
  have hle' : c.val ≤ p.val := hle
  set w : Eqs n K := ⟨swapRows s.a c p, swapRows s.b c p⟩ with hw
  have hwa : w.a = swapRows s.a c p := rfl
  have hwb : w.b = swapRows s.b c p := rfl
  have hpiv : tiny ≤ |w.a c c| := not_lt.mp hp
  have hne : w.a c c ≠ 0 := by
    intro h0; rw [h0, abs_zero] at hpiv; exact absurd tiny_pos (not_lt.mpr hpiv)
  have hrow : ∀ i : Fin n, i.val < c.val → w.a i = s.a i := by
    intro i hi
    rw [hwa]; unfold swapRows
    rw [if_neg (fun e => by subst e; omega), if_neg (fun e => by subst e; omega)]
  have hup : Upper c.val w.a := by
    intro i j hj hji
    rw [hwa]
    unfold swapRows
    split
    · exact hs.upper p j hj (Fin.lt_def.mpr (by omega))
    · split
      · exact hs.upper c j hj (Fin.lt_def.mpr hj)
      · exact hs.upper i j hj hji
  subst h
  have hlin : ∀ x i, linked w.a x i = if i = c then linked s.a x p else if i = p then linked s.a x c else linked s.a x i :=
    fun x i => linked_swap s.a c p x i
  have hb : ∀ i, w.b i = if i = c then s.b p else if i = p then s.b c else s.b i := fun i => rfl
  refine ⟨?_, ?_, ?_, ?_⟩
  · intro i j hj hji
    by_cases hjc : j.val < c.val
    · have h0 : w.a i j = 0 := hup i j hjc hji
      have hnle : ¬ c ≤ j := not_le.mpr (Fin.lt_def.mpr hjc)
      simp only [clearBelow, hnle, and_false, if_false]
      exact h0
    · have hj' : j = c := Fin.ext (by omega)
      subst hj'
      simp only [clearBelow, hji, le_refl, and_self, if_true]
      field_simp
      ring
  · intro i hi
    have hnc : ¬ c < i := not_lt.mpr (Fin.le_def.mpr (by omega))
    simp only [clearBelow, hnc, false_and, if_false]
    by_cases hic : i = c
    · rw [hic]; exact hpiv
    · have hlt : i.val < c.val := by
        have : i.val ≠ c.val := fun e => hic (Fin.ext e)
        omega
      rw [hrow i hlt]
      exact hs.pivots i hlt
  · intro x
    rw [← hs.same x]
    constructor
    · intro h
      have hcc : linked w.a x c = w.b c := by
        have := h c
        rw [linked_clear hup] at this
        simpa [clearBelow] using this
      have hall : ∀ i, linked w.a x i = w.b i := by
        intro i
        have := h i
        rw [linked_clear hup] at this
        by_cases hci : c < i
        · simp only [clearBelow, hci, if_true] at this
          rw [hcc] at this
          linarith
        · simpa [clearBelow, hci] using this
      intro i
      by_cases hic : i = c
      · subst hic
        by_cases hpc : p = i
        · have := hall i
          rw [hlin, hb] at this
          simpa [hpc] using this
        · have := hall p
          rw [hlin, hb] at this
          simpa [hpc] using this
      · by_cases hip : i = p
        · subst hip
          have := hall c
          rw [hlin, hb] at this
          simpa using this
        · have := hall i
          rw [hlin, hb] at this
          simpa [hic, hip] using this
    · intro h i
      have hall : ∀ i, linked w.a x i = w.b i := by
        intro i
        rw [hlin, hb, h p, h c, h i]
      rw [linked_clear hup, hall, hall]
      simp only [clearBelow]
  · intro x d hd hz hsm i
    refine hs.small x d hd ?_ ?_ i
    · intro i hi
      have := hz i (by omega)
      rw [linked_clear hup, if_neg (not_lt.mpr (Fin.le_def.mpr (by omega)))] at this
      have hr := hrow i hi
      unfold linked at this ⊢
      rw [hr] at this
      exact this
    · have hc0 : linked w.a x c = 0 := by
        have := hz c (by omega)
        rwa [linked_clear hup, if_neg (lt_irrefl c)] at this
      have hw' : ∀ i : Fin n, c.val ≤ i.val → |linked w.a x i| < d := by
        intro i hi
        by_cases hic : i = c
        · rw [hic, hc0, abs_zero]; exact hd
        · have hlt : c.val < i.val := by
            have : i.val ≠ c.val := fun e => hic (Fin.ext e)
            omega
          have := hsm i hlt
          rw [linked_clear hup, if_pos (Fin.lt_def.mpr hlt), hc0, mul_zero, sub_zero] at this
          exact this
      intro i hi
      by_cases hic : i = c
      · subst hic
        by_cases hpc : p = i
        · have := hw' i hi
          rw [hlin] at this
          simpa [hpc] using this
        · have := hw' p hle'
          rw [hlin] at this
          simpa [hpc] using this
      · by_cases hip : i = p
        · subst hip
          have := hw' c (le_refl _)
          rw [hlin] at this
          simpa using this
        · have := hw' i hi
          rw [hlin] at this
          simpa [hic, hip] using this

/-! ## Substitution -/

theorem sum_filter_list (k : Nat) (f : Fin n → K) :
    (((List.finRange n).filter fun j => k < j.val).map f).sum = ∑ j, if k < j.val then f j else 0 := by
  have : ∀ l : List (Fin n), ((l.filter fun j => k < j.val).map f).sum = (l.map fun j => if k < j.val then f j else 0).sum := by
    intro l
    induction l with
    | nil => simp
    | cons a l ih =>
      by_cases h : k < a.val
      · simp [List.filter_cons, h, ih]
      · simp [List.filter_cons, h, ih]
  rw [this, ← List.sum_ofFn, List.ofFn_eq_map]

theorem back_spec (s : Eqs n K) (k : Nat) (hk : k ≤ n) (hu : Upper k s.a) (hp : Pivots k s.a) (x : Vec n K) :
    (∀ j : Fin n, k ≤ j.val → back s k x j = x j) ∧ ∀ i : Fin n, i.val < k → linked s.a (back s k x) i = s.b i := by
  induction k generalizing x with
  | zero => exact ⟨fun _ _ => rfl, fun i h => by omega⟩
  | succ k ih =>
    have hlt : k < n := by omega
    unfold back
    rw [dif_pos hlt]
    set c : Fin n := ⟨k, hlt⟩ with hc
    set v := (s.b c - (((List.finRange n).filter fun j => k < j.val).map fun j => s.a c j * x j).sum) / s.a c c with hv
    obtain ⟨h1, h2⟩ := ih (by omega) (fun i j hj hji => hu i j (by omega) hji) (fun i hi => hp i (by omega)) (Function.update x c v)
    refine ⟨fun j hj => ?_, fun i hi => ?_⟩
    · rw [h1 j (by omega), Function.update_of_ne]
      intro e; rw [e, hc] at hj; simp at hj
    · by_cases hik : i.val < k
      · exact h2 i hik
      · have hic : i = c := Fin.ext (by rw [hc]; simp; omega)
        subst hic
        have hne : s.a c c ≠ 0 := by
          have := hp c (by rw [hc]; simp)
          intro h0; rw [h0, abs_zero] at this; exact absurd tiny_pos (not_lt.mpr this)
        unfold linked
        have hterm : ∀ j : Fin n, s.a c j * back s k (Function.update x c v) j =
            (if j = c then s.a c c * v else 0) + if k < j.val then s.a c j * x j else 0 := by
          intro j
          by_cases hjk : j.val < k
          · rw [hu c j (by omega) (Fin.lt_def.mpr (by rw [hc]; exact hjk)), if_neg (fun e => by rw [e, hc] at hjk; simp at hjk),
              if_neg (by omega)]
            ring
          · rw [h1 j (by omega)]
            by_cases hjc : j = c
            · subst hjc
              rw [Function.update_self, if_pos rfl, if_neg (by rw [hc]; simp)]
              ring
            · have : k < j.val := by
                have : j.val ≠ k := fun e => hjc (Fin.ext (by rw [hc]; exact e))
                omega
              rw [Function.update_of_ne hjc, if_neg hjc, if_pos this]
              ring
        rw [Finset.sum_congr rfl fun j _ => hterm j, Finset.sum_add_distrib]
        simp only [Finset.sum_ite_eq', Finset.mem_univ, if_true]
        rw [hv, sum_filter_list]
        field_simp
        ring

theorem step_none {a₀ : Mat n K} {b₀ : Vec n K} {c : Fin n} {s : Eqs n K} (hs : State a₀ b₀ c.val s)
    (h : columnStep c s = none) : ∃ x : Vec n K, x c = 1 ∧ ∀ i, |linked a₀ x i| < tiny := by
  unfold columnStep at h
  simp only at h
  obtain ⟨hle, hmax⟩ := largest_spec s.a c
  generalize largest s.a c = p at h hle hmax
  split at h
  · rename_i hp
    have hp' : |s.a p c| < tiny := by simpa [swapRows] using hp
    let t : Eqs n K := ⟨s.a, fun _ => 0⟩
    obtain ⟨h1, h2⟩ := back_spec t c.val (le_of_lt c.isLt) hs.upper hs.pivots (fun w => if w = c then 1 else 0)
    refine ⟨back t c.val fun w => if w = c then 1 else 0, by rw [h1 c (le_refl _)]; simp, hs.small _ _ tiny_pos h2 ?_⟩
    intro i hi
    have : linked s.a (back t c.val fun w => if w = c then 1 else 0) i = s.a i c := by
      unfold linked
      have hterm : ∀ j : Fin n, s.a i j * back t c.val (fun w => if w = c then 1 else 0) j = if j = c then s.a i c else 0 := by
        intro j
        by_cases hj : j.val < c.val
        · rw [hs.upper i j hj (Fin.lt_def.mpr (by omega)), if_neg (fun e => by subst e; omega), zero_mul]
        · rw [h1 j (not_lt.mp hj)]
          by_cases hjc : j = c
          · simp [hjc]
          · simp [hjc]
      rw [Finset.sum_congr rfl fun j _ => hterm j]
      simp
    rw [this]
    exact lt_of_le_of_lt (hmax i hi) hp'
  · simp at h

theorem sweep_spec (a : Mat n K) (b : Vec n K) (k : Nat) (hk : k ≤ n) :
    (∃ s, sweep ⟨a, b⟩ k = some s ∧ State a b k s) ∨
      (sweep ⟨a, b⟩ k = none ∧ ∃ (c : Fin n) (x : Vec n K), x c = 1 ∧ ∀ i, |linked a x i| < tiny) := by
  induction k with
  | zero => exact .inl ⟨_, rfl, state_zero a b⟩
  | succ k ih =>
    rcases ih (by omega) with ⟨s, h, hs⟩ | ⟨h, hx⟩
    · have hlt : k < n := by omega
      cases hstep : columnStep ⟨k, hlt⟩ s with
      | none =>
        right
        obtain ⟨x, hx⟩ := step_none (c := ⟨k, hlt⟩) hs hstep
        exact ⟨by simp [sweep, h, hlt, hstep], _, x, hx⟩
      | some s' =>
        left
        exact ⟨s', by simp [sweep, h, hlt, hstep], state_step (c := ⟨k, hlt⟩) hs hstep⟩
    · right
      exact ⟨by simp [sweep, h], hx⟩

theorem upper_unique {a : Mat n K} (k : Nat) (hk : k ≤ n) (hu : Upper n a) (hp : Pivots n a) {x y : Vec n K}
    (h : ∀ i, linked a x i = linked a y i) : ∀ i : Fin n, n - k ≤ i.val → x i = y i := by
  induction k with
  | zero => intro i hi; have := i.isLt; omega
  | succ k ih =>
    have ih := ih (by omega)
    intro i hi
    by_cases hik : n - k ≤ i.val
    · exact ih i hik
    · have hrow := h i
      unfold linked at hrow
      have hne : a i i ≠ 0 := by
        have := hp i i.isLt
        intro h0; rw [h0, abs_zero] at this; exact absurd tiny_pos (not_lt.mpr this)
      have hterm : ∀ j : Fin n, a i j * x j - a i j * y j = if j = i then a i i * (x i - y i) else 0 := by
        intro j
        rcases lt_trichotomy j i with hj | hj | hj
        · rw [hu i j j.isLt hj, if_neg hj.ne]; ring
        · subst hj; rw [if_pos rfl]; ring
        · rw [ih j (by have := Fin.lt_def.mp hj; omega), if_neg hj.ne']; ring
      have h0 : ∑ j, (a i j * x j - a i j * y j) = 0 := by rw [Finset.sum_sub_distrib, hrow, sub_self]
      rw [Finset.sum_congr rfl fun j _ => hterm j] at h0
      simp only [Finset.sum_ite_eq', Finset.mem_univ, if_true] at h0
      rcases mul_eq_zero.mp h0 with h0 | h0
      · exact absurd h0 hne
      · linarith

theorem solve_some {a : Mat n K} {b x : Vec n K} (h : solve a b = some x) :
    (∀ i, linked a x i = b i) ∧ ∀ y z : Vec n K, (∀ i, linked a y i = linked a z i) → y = z := by
  unfold solve at h
  split at h
  · simp at h
  rcases sweep_spec a b n (le_refl n) with ⟨s, hs, hst⟩ | ⟨hs, _⟩
  · rw [hs] at h
    simp only [Option.map_some, Option.some.injEq] at h
    subst h
    obtain ⟨_, h2⟩ := back_spec s n (le_refl n) hst.upper hst.pivots fun _ => 0
    refine ⟨(hst.same _).mp fun i => h2 i i.isLt, fun y z hyz => ?_⟩
    -- the difference, added to the solution, is a solution
    have hsol : ∀ i, linked a (back s n fun _ => 0) i = b i := (hst.same _).mp fun i => h2 i i.isLt
    have hadd : ∀ i, linked a (fun j => back s n (fun _ => 0) j + (y j - z j)) i = b i := by
      intro i
      rw [← hsol i]
      have := hyz i
      unfold linked at this ⊢
      have e : ∀ j, a i j * (back s n (fun _ => 0) j + (y j - z j)) = a i j * back s n (fun _ => 0) j + (a i j * y j - a i j * z j) := by
        intro j; ring
      rw [Finset.sum_congr rfl fun j _ => e j, Finset.sum_add_distrib, Finset.sum_sub_distrib, this]
      ring
    have hadd' := (hst.same _).mpr hadd
    have := upper_unique n (le_refl n) hst.upper hst.pivots
      (x := fun j => back s n (fun _ => 0) j + (y j - z j)) (y := back s n fun _ => 0)
      (fun i => by rw [hadd' i, h2 i i.isLt])
    funext i
    have h3 := this i (by omega)
    simp only at h3
    linarith
  · rw [hs] at h; simp at h

theorem solve_none {a : Mat n K} {b : Vec n K} (hn : n ≠ 0) (h : solve a b = none) :
    ∃ (c : Fin n) (x : Vec n K), x c = 1 ∧ ∀ i, |linked a x i| < tiny := by
  unfold solve at h
  rw [if_neg hn] at h
  rcases sweep_spec a b n (le_refl n) with ⟨s, hs, hst⟩ | ⟨hs, hx⟩
  · rw [hs] at h; simp at h
  · exact hx

end Verif.Thermal
