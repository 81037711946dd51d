import Verif.Scoring.Model
import Mathlib.Tactic.Linarith
import Mathlib.Tactic.NormNum
import Mathlib.Tactic.Positivity
import Mathlib.Tactic.FieldSimp
import Mathlib.Tactic.Ring

/-! # Helper lemmas about score normalisation -/

namespace Verif.Scoring

set_option linter.unusedSectionVars false

variable {K : Type} [Field K] [LinearOrder K] [IsStrictOrderedRing K]

/-- The finite entries among the scores. -/
def IsFin (v : Num K) : Prop := ∃ x, v = .fin x

theorem maxElement_fin (l : List (Num K)) : ∀ x : K, (∀ v ∈ l, v ≠ .pinf) →
    ∃ m, maxElement (.fin x) l = .fin m ∧ x ≤ m ∧ (∀ y, .fin y ∈ l → y ≤ m) ∧ (m = x ∨ .fin m ∈ l) := by
  induction l with
  | nil => intro x _; exact ⟨x, rfl, le_refl _, by simp, Or.inl rfl⟩
  | cons v l ih =>
    intro x h
    have h' : ∀ v ∈ l, v ≠ .pinf := fun v hv => h v (by simp [hv])
    have keep : ∀ v' : Num K, Num.ltB (.fin x) v' = false → (∀ y, v' = .fin y → y ≤ x) →
        v = v' → ∃ m, maxElement (.fin x) (v :: l) = .fin m ∧ x ≤ m ∧ (∀ y, .fin y ∈ v :: l → y ≤ m) ∧
          (m = x ∨ .fin m ∈ v :: l) := by
      rintro v' hk hy rfl
      obtain ⟨m, e1, e2, e3, e4⟩ := ih x h'
      refine ⟨m, by rw [maxElement, hk]; exact e1, e2, ?_, ?_⟩
      · intro y hy'
        rcases List.mem_cons.mp hy' with hy' | hy'
        · exact le_trans (hy y hy'.symm) e2
        · exact e3 y hy'
      · rcases e4 with e4 | e4
        · exact Or.inl e4
        · exact Or.inr (by simp [e4])
    cases v with
    | fin z =>
      by_cases hz : x < z
      · obtain ⟨m, e1, e2, e3, e4⟩ := ih z h'
        refine ⟨m, by rw [maxElement]; simp only [Num.ltB, hz, decide_true, if_true]; exact e1,
          le_trans hz.le e2, ?_, ?_⟩
        · intro y hy'
          rcases List.mem_cons.mp hy' with hy' | hy'
          · cases hy'; exact e2
          · exact e3 y hy'
        · rcases e4 with e4 | e4
          · exact Or.inr (by simp [e4])
          · exact Or.inr (by simp [e4])
      · exact keep (.fin z) (by simp [Num.ltB]; exact not_lt.mp hz)
          (fun y hy => by cases hy; exact not_lt.mp hz) rfl
    | nan => exact keep .nan rfl (fun y hy => by cases hy) rfl
    | ninf => exact keep .ninf rfl (fun y hy => by cases hy) rfl
    | pinf => exact absurd rfl (h .pinf (by simp))

theorem minElement_ninf (l : List (Num K)) : minElement (.ninf : Num K) l = .ninf := by
  induction l with
  | nil => rfl
  | cons v l ih => rw [minElement]; cases v <;> simpa [Num.ltB] using ih

theorem minElement_fin (l : List (Num K)) : ∀ x : K, (∀ v ∈ l, v ≠ .pinf) →
    minElement (.fin x) l = .ninf ∨
    ∃ m, minElement (.fin x) l = .fin m ∧ m ≤ x ∧ (∀ y, .fin y ∈ l → m ≤ y) ∧ (m = x ∨ .fin m ∈ l) := by
  induction l with
  | nil => intro x _; exact Or.inr ⟨x, rfl, le_refl _, by simp, Or.inl rfl⟩
  | cons v l ih =>
    intro x h
    have h' : ∀ v ∈ l, v ≠ .pinf := fun v hv => h v (by simp [hv])
    have keep : ∀ v' : Num K, Num.ltB v' (.fin x) = false → (∀ y, v' = .fin y → x ≤ y) →
        v = v' → minElement (.fin x) (v :: l) = .ninf ∨
        ∃ m, minElement (.fin x) (v :: l) = .fin m ∧ m ≤ x ∧ (∀ y, .fin y ∈ v :: l → m ≤ y) ∧
          (m = x ∨ .fin m ∈ v :: l) := by
      rintro v' hk hy rfl
      rcases ih x h' with e | ⟨m, e1, e2, e3, e4⟩
      · exact Or.inl (by rw [minElement, hk]; exact e)
      refine Or.inr ⟨m, by rw [minElement, hk]; exact e1, e2, ?_, ?_⟩
      · intro y hy'
        rcases List.mem_cons.mp hy' with hy' | hy'
        · exact le_trans e2 (hy y hy'.symm)
        · exact e3 y hy'
      · rcases e4 with e4 | e4
        · exact Or.inl e4
        · exact Or.inr (by simp [e4])
    cases v with
    | fin z =>
      by_cases hz : z < x
      · have hstep : minElement (.fin x) (.fin z :: l) = minElement (.fin z) l := by
          rw [minElement]; simp only [Num.ltB, hz, decide_true, if_true]
        rw [hstep]
        rcases ih z h' with e | ⟨m, e1, e2, e3, e4⟩
        · exact Or.inl e
        refine Or.inr ⟨m, e1, le_trans e2 hz.le, ?_, ?_⟩
        · intro y hy'
          rcases List.mem_cons.mp hy' with hy' | hy'
          · cases hy'; exact e2
          · exact e3 y hy'
        · rcases e4 with e4 | e4
          · exact Or.inr (by simp [e4])
          · exact Or.inr (by simp [e4])
      · exact keep (.fin z) (by simp [Num.ltB]; exact not_lt.mp hz)
          (fun y hy => by cases hy; exact not_lt.mp hz) rfl
    | nan => exact keep .nan rfl (fun y hy => by cases hy) rfl
    | ninf =>
      refine Or.inl ?_
      rw [minElement]
      simp only [Num.ltB, if_true]
      exact minElement_ninf l
    | pinf => exact absurd rfl (h .pinf (by simp))

theorem minElement_ne_ninf (l : List (Num K)) : ∀ v : Num K, v ≠ .ninf → Num.ninf ∉ l →
    minElement v l ≠ .ninf := by
  induction l with
  | nil => intro v hv _; exact hv
  | cons u l ih =>
    intro v hv h
    rw [minElement]
    have hu : u ≠ .ninf := fun e => h (by simp [e])
    have hl : Num.ninf ∉ l := fun e => h (by simp [e])
    split
    · exact ih u hu hl
    · exact ih v hv hl

/-- Maximum and minimum of a non-empty list of finite scores. -/
theorem extremes (x : K) (l : List K) : ∃ mn mx, maxElement (Num.fin x) (l.map Num.fin) = .fin mx ∧
    minElement (Num.fin x) (l.map Num.fin) = .fin mn ∧ mn ∈ x :: l ∧ mx ∈ x :: l ∧
    ∀ v ∈ x :: l, mn ≤ v ∧ v ≤ mx := by
  have hp : ∀ v ∈ l.map Num.fin, v ≠ (Num.pinf : Num K) := by
    intro v hv; obtain ⟨y, _, rfl⟩ := List.mem_map.mp hv; simp
  obtain ⟨mx, a1, a2, a3, a4⟩ := maxElement_fin (l.map Num.fin) x hp
  rcases minElement_fin (l.map Num.fin) x hp with h | ⟨mn, b1, b2, b3, b4⟩
  · exact absurd h (minElement_ne_ninf _ _ (by simp) (by simp))
  refine ⟨mn, mx, a1, b1, ?_, ?_, ?_⟩
  · rcases b4 with h | h
    · simp [h]
    · obtain ⟨y, hy, e⟩ := List.mem_map.mp h; cases e; simp [hy]
  · rcases a4 with h | h
    · simp [h]
    · obtain ⟨y, hy, e⟩ := List.mem_map.mp h; cases e; simp [hy]
  · intro v hv
    rcases List.mem_cons.mp hv with rfl | hv
    · exact ⟨b2, a2⟩
    · exact ⟨b3 v (List.mem_map.mpr ⟨v, hv, rfl⟩), a3 v (List.mem_map.mpr ⟨v, hv, rfl⟩)⟩

/-- The common affine formula. -/
def affine (w : K) (invert : Bool) (a b s : K) : K :=
  if invert then w * (1 - (s - a) / (b - a)) else w * (s - a) / (b - a)

theorem unit_bounds {a b s : K} (h : a < b) (h1 : a ≤ s) (h2 : s ≤ b) :
    0 ≤ (s - a) / (b - a) ∧ (s - a) / (b - a) ≤ 1 := by
  have hp : 0 < b - a := by linarith
  exact ⟨div_nonneg (by linarith) hp.le, (div_le_one hp).mpr (by linarith)⟩

theorem affine_bounds {w a b s : K} (hw : 0 ≤ w) (inv : Bool) (h : a < b) (h1 : a ≤ s) (h2 : s ≤ b) :
    0 ≤ affine w inv a b s ∧ affine w inv a b s ≤ w := by
  obtain ⟨u1, u2⟩ := unit_bounds h h1 h2
  unfold affine
  cases inv
  · simp only [Bool.false_eq_true, if_false]
    rw [mul_div_assoc]
    exact ⟨mul_nonneg hw u1, mul_le_of_le_one_right hw u2⟩
  · simp only [if_true]
    exact ⟨mul_nonneg hw (by linarith), mul_le_of_le_one_right hw (by linarith)⟩

theorem affine_mono {w a b s t : K} (hw : 0 ≤ w) (inv : Bool) (h : a < b) (hst : s ≤ t) :
    if inv then affine w inv a b t ≤ affine w inv a b s else affine w inv a b s ≤ affine w inv a b t := by
  have hp : 0 < b - a := by linarith
  have hd : (s - a) / (b - a) ≤ (t - a) / (b - a) := (div_le_div_iff_of_pos_right hp).mpr (by linarith)
  cases inv
  · simp only [Bool.false_eq_true, if_false, affine]
    rw [mul_div_assoc, mul_div_assoc]
    exact mul_le_mul_of_nonneg_left hd hw
  · simp only [if_true, affine]
    exact mul_le_mul_of_nonneg_left (by linarith) hw

theorem affine_strict {w a b s t : K} (hw : 0 < w) (inv : Bool) (h : a < b) (hst : s < t) :
    if inv then affine w inv a b t < affine w inv a b s else affine w inv a b s < affine w inv a b t := by
  have hp : 0 < b - a := by linarith
  have hd : (s - a) / (b - a) < (t - a) / (b - a) := (div_lt_div_iff_of_pos_right hp).mpr (by linarith)
  cases inv
  · simp only [Bool.false_eq_true, if_false, affine]
    rw [mul_div_assoc, mul_div_assoc]
    exact mul_lt_mul_of_pos_left hd hw
  · simp only [if_true, affine]
    exact mul_lt_mul_of_pos_left (by linarith) hw

theorem affine_low {w a b : K} (inv : Bool) : affine w inv a b a = if inv then w else 0 := by
  cases inv <;> simp [affine]

theorem affine_high {w a b : K} (inv : Bool) (h : a < b) : affine w inv a b b = if inv then 0 else w := by
  have hp : b - a ≠ 0 := by intro h0; linarith
  cases inv
  · simp [affine, hp]
  · simp [affine, hp]

theorem floor10_pos : (0 : K) < floor10 := by unfold floor10; positivity

theorem sortDesc_sorted {I : Type} (l : List (I × K)) : (sortDesc l).Pairwise (fun a b => b.2 ≤ a.2) := by
  have := List.pairwise_mergeSort (le := fun a b : I × K => decide (b.2 ≤ a.2))
    (by intro a b c h1 h2; simp only [decide_eq_true_eq] at *; exact le_trans h2 h1)
    (by intro a b; simp only [Bool.or_eq_true, decide_eq_true_eq]; exact le_total _ _) l
  exact this.imp (by simp)

theorem sortDesc_perm {I : Type} (l : List (I × K)) : (sortDesc l).Perm l := List.mergeSort_perm _ _

/-- Stability: two entries in non-increasing order keep their order. -/
theorem sortDesc_stable {I : Type} (l : List (I × K)) (a b : I × K) (h : [a, b].Sublist l)
    (hab : b.2 ≤ a.2) : [a, b].Sublist (sortDesc l) := by
  refine List.sublist_mergeSort (le := fun a b : I × K => decide (b.2 ≤ a.2)) ?_ ?_ ?_ h
  · intro a b c h1 h2; simp only [decide_eq_true_eq] at *; exact le_trans h2 h1
  · intro a b; simp only [Bool.or_eq_true, decide_eq_true_eq]; exact le_total _ _
  · simp [hab]

/-- Insertion into a descending list, before its equals. -/
def insertDesc {I : Type} (a : I × K) : List (I × K) → List (I × K)
  | [] => [a]
  | b :: l => if b.2 ≤ a.2 then a :: b :: l else b :: insertDesc a l

/-- Insertion sort, for computing examples. -/
def insSort {I : Type} : List (I × K) → List (I × K)
  | [] => []
  | a :: l => insertDesc a (insSort l)

theorem insertDesc_split {I : Type} (a : I × K) (l₁ l₂ : List (I × K)) (h1 : ∀ b ∈ l₁, ¬ b.2 ≤ a.2)
    (h2 : ∀ b ∈ l₂, b.2 ≤ a.2) : insertDesc a (l₁ ++ l₂) = l₁ ++ a :: l₂ := by
  induction l₁ with
  | nil =>
    cases l₂ with
    | nil => rfl
    | cons b l₂ => simp [insertDesc, h2 b (by simp)]
  | cons b l₁ ih =>
    simp only [List.cons_append, insertDesc, if_neg (h1 b (by simp))]
    rw [ih (fun c hc => h1 c (by simp [hc]))]

/-- The stable sort is insertion sort. -/
theorem sortDesc_eq_insSort {I : Type} (l : List (I × K)) : sortDesc l = insSort l := by
  induction l with
  | nil => simp [sortDesc, insSort]
  | cons a l ih =>
    have hs := sortDesc_sorted (a :: l)
    obtain ⟨l₁, l₂, h1, h2, h3⟩ := List.mergeSort_cons (le := fun a b : I × K => decide (b.2 ≤ a.2))
      (by intro a b c h1 h2; simp only [decide_eq_true_eq] at *; exact le_trans h2 h1)
      (by intro a b; simp only [Bool.or_eq_true, decide_eq_true_eq]; exact le_total _ _) a l
    have e1 : sortDesc (a :: l) = l₁ ++ a :: l₂ := h1
    have e2 : sortDesc l = l₁ ++ l₂ := h2
    rw [insSort, ← ih, e1, e2, insertDesc_split]
    · intro b hb
      have := h3 b hb
      simpa using this
    · rw [e1] at hs
      have := (List.pairwise_append.mp hs).2.1
      exact fun b hb => (List.pairwise_cons.mp this).1 b hb

end Verif.Scoring
