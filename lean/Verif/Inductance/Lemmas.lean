import Verif.Inductance.Spec
import Mathlib.Tactic.Ring
import Mathlib.Tactic.Linarith
import Mathlib.Tactic.LinearCombination
import Mathlib.Tactic.FieldSimp
import Mathlib.Tactic.Positivity
import Mathlib.Algebra.BigOperators.Ring.Finset
import Mathlib.Algebra.BigOperators.Ring.List
import Mathlib.Algebra.BigOperators.Field

/-! # Helper lemmas: energies, quadratic forms and elimination -/

set_option linter.unusedSimpArgs false
set_option linter.unusedSectionVars false

namespace Verif.Inductance

open Finset

variable {K : Type} [Field K] [LinearOrder K] [IsStrictOrderedRing K] {n : Nat}

/-! ## Energies -/

theorem directed (i : K) : |i| * (if i < 0 then -1 else 1) = i := by
  split
  · rename_i h; rw [abs_of_neg h]; ring
  · rename_i h; rw [abs_of_nonneg (not_lt.mp h)]; ring

/-- The weight of a point. -/
def weight (g : Grid n K) (p : Point n K) : K := 2 * g.permeability * g.area * pathLength g.pi g.bobbin p

theorem four_integrate (g : Grid n K) (x : Vec n K) :
    4 * integrate g x = (g.points.map fun p => weight g p * ((∑ w, x w * p.re w) ^ 2 + (∑ w, x w * p.im w) ^ 2)).sum := by
  unfold integrate
  rw [← List.sum_map_mul_left]
  congr 1
  apply List.map_congr_left
  intro p _
  simp only [fieldAt, weight]
  ring

theorem path_around (pi : K) (b : Bobbin K) (p : Point n K) : pathLength pi b p = around pi b p := by
  unfold pathLength around
  cases b.roundWindow <;> cases b.roundColumn <;> simp <;> ring

theorem integrate_energy (g : Grid n K) (x : Vec n K) : integrate g x = Energy g x := by
  unfold integrate Energy
  congr 1
  apply List.map_congr_left
  intro p _
  simp only [fieldAt, path_around]
  rw [show (∑ w, x w * p.re w) = ∑ w, p.re w * x w from Finset.sum_congr rfl fun w _ => mul_comm _ _,
    show (∑ w, x w * p.im w) = ∑ w, p.im w * x w from Finset.sum_congr rfl fun w _ => mul_comm _ _]
  ring

theorem fieldEnergy_eq (g : Grid n K) (x : Vec n K) : fieldEnergy g x = integrate g x := by
  unfold fieldEnergy
  congr 1
  funext w
  exact directed _

theorem sum_ones_one (a : Fin n) (h : Vec n K) : ∑ w, (ones [a] : Vec n K) w * h w = h a := by
  simp [ones]

theorem sum_ones_two {a b : Fin n} (hab : a ≠ b) (h : Vec n K) : ∑ w, (ones [a, b] : Vec n K) w * h w = h a + h b := by
  have : ∀ w, (ones [a, b] : Vec n K) w * h w = (if w = a then h w else 0) + if w = b then h w else 0 := by
    intro w
    by_cases h1 : w = a
    · subst h1; simp [ones, hab]
    · by_cases h2 : w = b
      · subst h2; simp [ones, h1]
      · simp [ones, h1, h2]
  rw [Finset.sum_congr rfl fun w _ => this w, Finset.sum_add_distrib]
  simp

theorem leakage_entry (g : Grid n K) (a b : Fin n) :
    leakage g a b = (g.points.map fun p => weight g p * (p.re a * p.re b + p.im a * p.im b)).sum := by
  have key : ∀ a b : Fin n, a ≠ b →
      2 * (integrate g (ones [a, b]) - integrate g (ones [a]) - integrate g (ones [b])) =
      (g.points.map fun p => weight g p * (p.re a * p.re b + p.im a * p.im b)).sum := by
    intro a b hab
    have h1 := four_integrate g (ones [a, b])
    have h2 := four_integrate g (ones [a])
    have h3 := four_integrate g (ones [b])
    simp only [sum_ones_one, sum_ones_two hab] at h1 h2 h3
    have : 4 * (integrate g (ones [a, b]) - integrate g (ones [a]) - integrate g (ones [b])) =
        2 * (g.points.map fun p => weight g p * (p.re a * p.re b + p.im a * p.im b)).sum := by
      rw [mul_sub, mul_sub, h1, h2, h3, ← List.sum_map_mul_left]
      generalize g.points = l
      induction l with
      | nil => simp
      | cons p l ih => simp only [List.map_cons, List.sum_cons]; linear_combination ih
    linarith
  unfold leakage
  simp only [fieldEnergy_eq]
  by_cases hab : a = b
  · subst hab
    rw [if_pos rfl, four_integrate]
    simp only [sum_ones_one]
    congr 1
    apply List.map_congr_left
    intro p _
    ring
  · rw [if_neg hab]
    split
    · exact key a b hab
    · rw [key b a (Ne.symm hab)]
      congr 1
      apply List.map_congr_left
      intro p _
      ring

theorem list_sum_finset (l : List (Point n K)) (f : Point n K → Fin n → Fin n → K) :
    ∑ i, ∑ j, (l.map fun p => f p i j).sum = (l.map fun p => ∑ i, ∑ j, f p i j).sum := by
  induction l with
  | nil => simp
  | cons p l ih => simp only [List.map_cons, List.sum_cons, Finset.sum_add_distrib, ih]

theorem square_sum (x h : Vec n K) : ∑ i, ∑ j, x i * (h i * h j) * x j = (∑ w, x w * h w) ^ 2 := by
  rw [pow_two, Finset.sum_mul_sum]
  refine Finset.sum_congr rfl fun i _ => Finset.sum_congr rfl fun j _ => ?_
  ring

theorem quadratic_leakage (g : Grid n K) (x : Vec n K) : quadratic (leakage g) x = 4 * integrate g x := by
  rw [four_integrate]
  unfold quadratic
  simp only [leakage_entry]
  have : ∀ i j, x i * (g.points.map fun p => weight g p * (p.re i * p.re j + p.im i * p.im j)).sum * x j =
      (g.points.map fun p => weight g p * (x i * (p.re i * p.re j) * x j + x i * (p.im i * p.im j) * x j)).sum := by
    intro i j
    rw [← List.sum_map_mul_left, ← List.sum_map_mul_right]
    congr 1
    apply List.map_congr_left
    intro p _
    ring
  rw [Finset.sum_congr rfl fun i _ => Finset.sum_congr rfl fun j _ => this i j]
  rw [list_sum_finset _ fun p i j => weight g p * (x i * (p.re i * p.re j) * x j + x i * (p.im i * p.im j) * x j)]
  congr 1
  apply List.map_congr_left
  intro p _
  rw [← square_sum x p.re, ← square_sum x p.im, ← Finset.sum_add_distrib, Finset.mul_sum]
  refine Finset.sum_congr rfl fun i _ => ?_
  rw [← Finset.sum_add_distrib, Finset.mul_sum]

theorem leakage_symm (g : Grid n K) (a b : Fin n) : leakage g a b = leakage g b a := by
  rw [leakage_entry, leakage_entry]
  congr 1
  apply List.map_congr_left
  intro p _
  ring

theorem integrate_nonneg {g : Grid n K} (hg : Sound g) (x : Vec n K) : 0 ≤ integrate g x := by
  unfold integrate
  apply List.sum_nonneg
  intro v hv
  obtain ⟨p, hp, rfl⟩ := List.mem_map.mp hv
  have h1 := hg.permeability
  have h2 := hg.area
  have h3 := hg.paths p hp
  rw [path_around]
  positivity

theorem leakage_passive {g : Grid n K} (hg : Sound g) : Passive (leakage g) :=
  ⟨leakage_symm g, fun x => by rw [quadratic_leakage]; have := integrate_nonneg hg x; linarith⟩

/-! ## Quadratic forms -/

theorem quadratic_add (a b : Mat n K) (x : Vec n K) : quadratic (fun i j => a i j + b i j) x = quadratic a x + quadratic b x := by
  unfold quadratic
  rw [← Finset.sum_add_distrib]
  refine Finset.sum_congr rfl fun i _ => ?_
  rw [← Finset.sum_add_distrib]
  refine Finset.sum_congr rfl fun j _ => ?_
  ring

/-- A vector with two entries. -/
def two (s d : Fin n) (u v : K) : Vec n K := fun w => (if w = s then u else 0) + if w = d then v else 0

theorem sum_two (s d : Fin n) (u v : K) (f : Vec n K) : ∑ w, two s d u v w * f w = u * f s + v * f d := by
  simp only [two, add_mul, Finset.sum_add_distrib, ite_mul, zero_mul, Finset.sum_ite_eq', Finset.mem_univ, if_true]

theorem quadratic_two (l : Mat n K) (s d : Fin n) (u v : K) :
    quadratic l (two s d u v) = u * (u * l s s + v * l s d) + v * (u * l d s + v * l d d) := by
  have h : quadratic l (two s d u v) = ∑ i, two s d u v i * ∑ j, two s d u v j * l i j := by
    unfold quadratic
    refine Finset.sum_congr rfl fun i _ => ?_
    rw [Finset.mul_sum]
    refine Finset.sum_congr rfl fun j _ => ?_
    ring
  rw [h, sum_two, sum_two, sum_two]

theorem quadratic_single (l : Mat n K) (s : Fin n) : quadratic l (ones [s]) = l s s := by
  have h : (ones [s] : Vec n K) = two s s 1 0 := by
    funext w
    simp [ones, two]
  rw [h, quadratic_two]; ring

theorem passive_diag {l : Mat n K} (h : Passive l) (i : Fin n) : 0 ≤ l i i := by
  have := h.stored (ones [i]); rwa [quadratic_single] at this

theorem passive_schwarz {l : Mat n K} (h : Passive l) (i j : Fin n) : l i j * l i j ≤ l i i * l j j := by
  rcases lt_or_eq_of_le (passive_diag h j) with hj | hj
  · have := h.stored (two i j (l j j) (-l i j))
    rw [quadratic_two, h.symmetric j i] at this
    have h2 : l j j * (l i i * l j j - l i j * l i j) ≥ 0 := by nlinarith [this]
    have := le_of_mul_le_mul_left (a := l j j) (b := 0) (c := l i i * l j j - l i j * l i j) (by linarith) hj
    linarith
  · -- the form is linear along j, so the mutual is zero
    have hz : l i j = 0 := by
      by_contra hne
      have := h.stored (two i j 1 (-(l i i + 1) / (2 * l i j)))
      rw [quadratic_two, h.symmetric j i, ← hj] at this
      have e : (1 : K) * (1 * l i i + -(l i i + 1) / (2 * l i j) * l i j) + -(l i i + 1) / (2 * l i j) * (1 * l i j + -(l i i + 1) / (2 * l i j) * 0) = -1 := by
        field_simp; ring
      rw [e] at this
      linarith
    rw [hz, ← hj]; simp

theorem passive_add {a b : Mat n K} (ha : Passive a) (hb : Passive b) : Passive fun i j => a i j + b i j :=
  ⟨fun i j => by show a i j + b i j = a j i + b j i; rw [ha.symmetric, hb.symmetric], fun x => by rw [quadratic_add]; exact add_nonneg (ha.stored x) (hb.stored x)⟩

/-- Only the pairs of the same column. -/
def within (c : Fin n → Nat) (l : Mat n K) : Mat n K := fun i j => if c i = c j then l i j else 0

theorem quadratic_within (c : Fin n → Nat) (l : Mat n K) (x : Vec n K) :
    quadratic (within c l) x = ∑ k ∈ Finset.image c Finset.univ, quadratic l fun i => if c i = k then x i else 0 := by
  unfold quadratic within
  rw [Finset.sum_comm (s := Finset.image c Finset.univ)]
  refine Finset.sum_congr rfl fun i _ => ?_
  rw [Finset.sum_comm (s := Finset.image c Finset.univ)]
  refine Finset.sum_congr rfl fun j _ => ?_
  rw [Finset.sum_eq_single (c i)]
  · simp only [if_true]
    by_cases h : c i = c j
    · rw [if_pos h, if_pos h.symm]
    · rw [if_neg h, if_neg (Ne.symm h)]; ring
  · intro k _ hk
    simp only [if_neg (Ne.symm hk)]; ring
  · intro h
    exact absurd (Finset.mem_image_of_mem c (Finset.mem_univ i)) h

theorem passive_within (c : Fin n → Nat) {l : Mat n K} (h : Passive l) : Passive (within c l) := by
  refine ⟨fun i j => ?_, fun x => ?_⟩
  · unfold within
    by_cases hc : c i = c j
    · rw [if_pos hc, if_pos hc.symm, h.symmetric]
    · rw [if_neg hc, if_neg (Ne.symm hc)]
  · rw [quadratic_within]
    exact Finset.sum_nonneg fun k _ => h.stored _

theorem quadratic_rankOne (lm : K) (r x : Vec n K) : quadratic (rankOne lm r) x = lm * (∑ i, r i * x i) ^ 2 := by
  unfold quadratic rankOne
  rw [show (∑ i, r i * x i) = ∑ i, x i * r i from Finset.sum_congr rfl fun i _ => mul_comm _ _, ← square_sum, Finset.mul_sum]
  refine Finset.sum_congr rfl fun i _ => ?_
  rw [Finset.mul_sum]
  refine Finset.sum_congr rfl fun j _ => ?_
  ring

theorem rankOne_passive {lm : K} (h : 0 ≤ lm) (r : Vec n K) : Passive (rankOne lm r) :=
  ⟨fun i j => by unfold rankOne; ring, fun x => by rw [quadratic_rankOne]; positivity⟩

/-! ## Elimination -/

/-- Both matrices say the same of unknowns and right hand sides as the first did. -/
def Equations (m a b : Mat n K) : Prop := ∀ x y : Vec n K, (∀ i, linked a x i = linked b y i) ↔ ∀ i, linked m x i = y i

theorem linked_swap (a : Mat n K) (p q : Fin n) (x : Vec n K) (i : Fin n) :
    linked (swapRows a p q) x i = if i = p then linked a x q else if i = q then linked a x p else linked a x i := by
  unfold linked swapRows
  split
  · rfl
  · split <;> rfl

theorem linked_divide (a : Mat n K) (c : Fin n) (v : K) (x : Vec n K) (i : Fin n) :
    linked (divideRow a c v) x i = if i = c then linked a x i / v else linked a x i := by
  unfold linked divideRow
  split
  · rw [Finset.sum_div]
    refine Finset.sum_congr rfl fun j _ => ?_
    ring
  · rfl

theorem linked_subtract (a : Mat n K) (c : Fin n) (f : Vec n K) (x : Vec n K) (i : Fin n) :
    linked (subtractRow a c f) x i = if i = c then linked a x i else linked a x i - f i * linked a x c := by
  unfold linked subtractRow
  split
  · rfl
  · rw [Finset.mul_sum, ← Finset.sum_sub_distrib]
    refine Finset.sum_congr rfl fun j _ => ?_
    ring

theorem swap_equations (a b : Mat n K) (p q : Fin n) (x y : Vec n K) :
    (∀ i, linked (swapRows a p q) x i = linked (swapRows b p q) y i) ↔ ∀ i, linked a x i = linked b y i := by
  simp only [linked_swap]
  constructor
  · intro h i
    by_cases hp : i = p
    · have := h q
      by_cases hq : q = p
      · subst hq; simpa [hp] using this
      · subst hp; rw [if_neg hq, if_pos rfl, if_neg hq, if_pos rfl] at this; exact this
    · by_cases hq : i = q
      · have := h p; simp only [if_true] at this; rw [hq]; exact this
      · have := h i; rw [if_neg hp, if_neg hq, if_neg hp, if_neg hq] at this; exact this
  · intro h i
    rw [h p, h q, h i]

theorem divide_equations (a b : Mat n K) (c : Fin n) {v : K} (hv : v ≠ 0) (x y : Vec n K) :
    (∀ i, linked (divideRow a c v) x i = linked (divideRow b c v) y i) ↔ ∀ i, linked a x i = linked b y i := by
  simp only [linked_divide]
  constructor
  · intro h i
    have := h i
    by_cases hc : i = c
    · rw [if_pos hc, if_pos hc] at this
      field_simp at this
      exact this
    · rwa [if_neg hc, if_neg hc] at this
  · intro h i
    rw [h i]

theorem subtract_equations (a b : Mat n K) (c : Fin n) (f : Vec n K) (x y : Vec n K) :
    (∀ i, linked (subtractRow a c f) x i = linked (subtractRow b c f) y i) ↔ ∀ i, linked a x i = linked b y i := by
  simp only [linked_subtract]
  constructor
  · intro h i
    have hc := h c
    simp only [if_true] at hc
    have := h i
    by_cases hi : i = c
    · rw [hi]; exact hc
    · rw [if_neg hi, if_neg hi, hc] at this
      linarith
  · intro h i
    rw [h c, h i]

theorem foldl_largest (a : Mat n K) (c : Fin n) (l : List (Fin n)) (best : Fin n) (hb : c ≤ best) :
    let r := l.foldl (fun best r => if c < r ∧ |a r c| > |a best c| then r else best) best
    c ≤ r ∧ |a best c| ≤ |a r c| ∧ ∀ i ∈ l, c < i → |a i c| ≤ |a r c| := by
  induction l generalizing best with
  | nil => exact ⟨hb, le_refl _, by simp⟩
  | cons i l ih =>
    simp only [List.foldl_cons]
    by_cases h : c < i ∧ |a i c| > |a best c|
    · rw [if_pos h]
      obtain ⟨h1, h2, h3⟩ := ih i h.1.le
      refine ⟨h1, h.2.le.trans h2, fun j hj hcj => ?_⟩
      rcases List.mem_cons.mp hj with rfl | hj
      · exact h2
      · exact h3 j hj hcj
    · rw [if_neg h]
      obtain ⟨h1, h2, h3⟩ := ih best hb
      refine ⟨h1, h2, fun j hj hcj => ?_⟩
      rcases List.mem_cons.mp hj with rfl | hj
      · have : ¬ |a j c| > |a best c| := fun hh => h ⟨hcj, hh⟩
        exact (not_lt.mp this).trans h2
      · exact h3 j hj hcj

theorem largest_spec (a : Mat n K) (c : Fin n) : c ≤ largest a c ∧ ∀ i, c ≤ i → |a i c| ≤ |a (largest a c) c| := by
  obtain ⟨h1, h2, h3⟩ := foldl_largest a c (List.finRange n) c (le_refl c)
  refine ⟨h1, fun i hi => ?_⟩
  rcases eq_or_lt_of_le hi with rfl | hi
  · exact h2
  · exact h3 i (List.mem_finRange i) hi

/-- The first columns are those of one. -/
def Cleared (k : Nat) (a : Mat n K) : Prop := ∀ i j : Fin n, j.val < k → a i j = if i = j then 1 else 0

theorem columnStep_some {c : Fin n} {m a b a' b' : Mat n K} (he : Equations m a b) (hc : Cleared c.val a)
    (h : columnStep c (a, b) = some (a', b')) : Equations m a' b' ∧ Cleared (c.val + 1) a' := by
  unfold columnStep at h
  simp only at h
  obtain ⟨hle, _⟩ := largest_spec a c
  generalize largest a c = p at h hle
  split at h
  · simp at h
  · rename_i hne
    have hne' : a p c ≠ 0 := by simpa using hne
    have hv : swapRows a c p c c = a p c := by simp [swapRows]
    simp only [Option.some.injEq, Prod.mk.injEq] at h
    obtain ⟨rfl, rfl⟩ := h
    constructor
    · intro x y
      rw [subtract_equations, divide_equations _ _ _ (by rw [hv]; exact hne'), swap_equations]
      exact he x y
    · intro i j hj
      have hz : ∀ i : Fin n, c.val ≤ i.val → j.val < c.val → a i j = 0 := by
        intro i hi hj
        rw [hc i j hj, if_neg]
        intro e; subst e; omega
      by_cases hjc : j.val < c.val
      · have hjne : j ≠ c := fun e => by subst e; omega
        -- rows c and p are zero in this column
        have h1 : swapRows a c p c j = 0 := by simp only [swapRows, if_true]; exact hz p hle hjc
        have h2 : divideRow (swapRows a c p) c (swapRows a c p c c) c j = 0 := by simp [divideRow, h1]
        have h3 : ∀ i, swapRows a c p i j = a i j := by
          intro i
          unfold swapRows
          split
          · rename_i e; subst e; rw [hz p hle hjc, hz i (le_refl _) hjc]
          · split
            · rename_i e; subst e; rw [hz c (le_refl _) hjc, hz i hle hjc]
            · rfl
        unfold subtractRow
        split
        · rename_i e; subst e
          rw [h2, if_neg (Ne.symm hjne)]
        · rename_i e
          rw [h2, mul_zero, sub_zero]
          unfold divideRow
          rw [if_neg e, h3, hc i j hjc]
      · have hj' : j = c := by apply Fin.ext; omega
        subst hj'
        have h2 : divideRow (swapRows a j p) j (swapRows a j p j j) j j = 1 := by
          simp only [divideRow, if_true]
          exact div_self (by rw [hv]; exact hne')
        unfold subtractRow
        split
        · rename_i e; subst e; rw [h2]
        · rename_i e
          rw [h2]; ring

theorem columnStep_none {c : Fin n} {m a b : Mat n K} (he : Equations m a b) (hc : Cleared c.val a)
    (h : columnStep c (a, b) = none) : ∃ x : Vec n K, x ≠ 0 ∧ ∀ i, linked m x i = 0 := by
  unfold columnStep at h
  simp only at h
  obtain ⟨hle, hmax⟩ := largest_spec a c
  generalize largest a c = p at h hle hmax
  split at h
  · rename_i hz
    have hzero : ∀ i : Fin n, c ≤ i → a i c = 0 := by
      intro i hi
      have := hmax i hi
      rw [hz] at this
      exact abs_eq_zero.mp (le_antisymm this (abs_nonneg _))
    refine ⟨fun w => if w = c then 1 else if w.val < c.val then -a w c else 0, fun hx => ?_, ?_⟩
    · have := congrFun hx c
      simp at this
    · have h0 : ∀ i, linked b (fun _ => 0) i = 0 := by intro i; simp [linked]
      refine (he _ (fun _ => 0)).mp fun i => ?_
      rw [h0]
      unfold linked
      have hterm : ∀ j : Fin n, a i j * (if j = c then (1 : K) else if j.val < c.val then -a j c else 0) =
          (if j = c then a i c else 0) + if j = i then (if i.val < c.val then -a i c else 0) else 0 := by
        intro j
        by_cases hjc : j = c
        · subst hjc
          simp only [if_true]
          by_cases hji : j = i
          · subst hji; simp
          · simp [hji]
        · rw [if_neg hjc, if_neg hjc, zero_add]
          by_cases hlt : j.val < c.val
          · rw [if_pos hlt, hc i j hlt]
            by_cases hji : j = i
            · subst hji; simp [hlt]
            · rw [if_neg (Ne.symm hji), if_neg hji]; ring
          · rw [if_neg hlt, mul_zero]
            by_cases hji : j = i
            · subst hji; rw [if_pos rfl, if_neg hlt]
            · rw [if_neg hji]
      rw [Finset.sum_congr rfl fun j _ => hterm j, Finset.sum_add_distrib]
      simp only [Finset.sum_ite_eq', Finset.mem_univ, if_true]
      by_cases hi : i.val < c.val
      · rw [if_pos hi]; ring
      · rw [if_neg hi, hzero i (Fin.le_def.mpr (not_lt.mp hi))]; ring
  · simp at h

theorem sweep_spec (m : Mat n K) (k : Nat) (hk : k ≤ n) :
    (∃ a b, sweep m k = some (a, b) ∧ Equations m a b ∧ Cleared k a) ∨
      (sweep m k = none ∧ ∃ x : Vec n K, x ≠ 0 ∧ ∀ i, linked m x i = 0) := by
  induction k with
  | zero =>
    left
    refine ⟨_, _, rfl, fun x y => ?_, fun i j h => by omega⟩
    have : ∀ i, linked (fun i j : Fin n => if i = j then (1 : K) else 0) y i = y i := by
      intro i; simp [linked]
    simp only [this]
  | succ k ih =>
    rcases ih (by omega) with ⟨a, b, hs, he, hc⟩ | ⟨hs, hx⟩
    · have hlt : k < n := by omega
      cases hstep : columnStep ⟨k, hlt⟩ (a, b) with
      | none =>
        right
        refine ⟨by simp [sweep, hs, hlt, hstep], columnStep_none he hc hstep⟩
      | some s =>
        left
        obtain ⟨a', b'⟩ := s
        obtain ⟨h1, h2⟩ := columnStep_some he hc hstep
        exact ⟨a', b', by simp [sweep, hs, hlt, hstep], h1, h2⟩
    · right
      exact ⟨by simp [sweep, hs], hx⟩

theorem linked_zero (l : Mat n K) (i : Fin n) : linked l 0 i = 0 := by simp [linked]

theorem invert_spec (m : Mat n K) :
    (∃ b, invert m = some b ∧ Undoes b m) ∨ (invert m = none ∧ ∃ x : Vec n K, x ≠ 0 ∧ ∀ i, linked m x i = 0) := by
  rcases sweep_spec m n (le_refl n) with ⟨a, b, hs, he, hc⟩ | ⟨hs, hx⟩
  · left
    refine ⟨b, by simp [invert, hs], ?_⟩
    have hone : ∀ x i, linked a x i = x i := by
      intro x i
      unfold linked
      rw [Finset.sum_congr rfl fun j _ => by rw [hc i j j.isLt]]
      simp
    constructor
    · intro x j
      have := (he x (linked m x)).mpr (fun i => rfl) j
      rw [hone] at this
      exact this.symm
    · intro y j
      exact (he (linked b y) y).mp (fun i => hone _ i) j
  · right
    exact ⟨by simp [invert, hs], hx⟩

theorem linked_column (l : Mat n K) (k j : Fin n) : linked l (ones [k]) j = l j k := by
  unfold linked ones
  simp

end Verif.Inductance
