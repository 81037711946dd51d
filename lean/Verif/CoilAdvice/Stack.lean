import Verif.CoilAdvice.Lemmas

/-! # The layers of a planar coil -/

set_option linter.unusedSectionVars false
set_option linter.unusedSimpArgs false
set_option linter.unusedVariables false

namespace Verif.CoilAdvice

variable {K : Type} [Field K] [LinearOrder K] [IsStrictOrderedRing K] [FloorRing K]

theorem inRepetition_le (l n : Nat) : inRepetition (K := K) l (n + 1) ≤ l := by
  unfold inRepetition
  rw [Nat.ceil_le]
  have : (0 : K) ≤ (l : K) := Nat.cast_nonneg l
  push_cast
  rw [div_le_iff₀ (by positivity)]
  have h2 : (0 : K) ≤ (n : K) := Nat.cast_nonneg n
  nlinarith

theorem inRepetition_one (l : Nat) : inRepetition (K := K) l 1 = l := by
  simp [inRepetition]

theorem count_oneRepetition (layers : List Nat) (n i k : Nat) :
    (((layers.zipIdx k).flatMap fun x => List.replicate (inRepetition (K := K) x.1 n) x.2)).count (k + i) =
      ((layers[i]?).map fun l => inRepetition (K := K) l n).getD 0 := by
  induction layers generalizing i k with
  | nil => simp
  | cons a l ih =>
    simp only [List.zipIdx_cons, List.flatMap_cons, List.count_append, List.count_replicate]
    cases i with
    | zero =>
      have hz : (List.flatMap (fun x : Nat × Nat => List.replicate (inRepetition (K := K) x.1 n) x.2) (l.zipIdx (k + 1))).count k = 0 := by
        rw [List.count_eq_zero]
        intro hm
        obtain ⟨x, hx, hr⟩ := List.mem_flatMap.1 hm
        have h1 := (List.mem_replicate.1 hr).2
        have h2 := (List.mem_zipIdx (x := x.1) (i := x.2) hx).1
        omega
      simp [hz]
    | succ i =>
      have := ih i (k + 1)
      rw [show k + 1 + i = k + (i + 1) by omega] at this
      simp [this]

/-- **C413.** Whatever the repetitions, each winding gets in the stack the layers decided for it. -/
theorem stack_count (repetitions : Nat) (layers : List Nat) (i : Nat) (h : 0 < repetitions) :
    (stackFrom (K := K) repetitions layers).count i = (layers[i]?).getD 0 := by
  obtain ⟨n, rfl⟩ : ∃ n, repetitions = n + 1 := ⟨repetitions - 1, by omega⟩
  clear h
  induction n generalizing layers with
  | zero =>
    have := count_oneRepetition (K := K) layers 1 i 0
    rw [Nat.zero_add] at this
    simp only [stackFrom, oneRepetition, List.append_nil, Nat.zero_add]
    rw [this]
    cases layers[i]? <;> simp [inRepetition_one]
  | succ n ih =>
    rw [stackFrom, List.count_append, ih]
    have := count_oneRepetition (K := K) layers (n + 1 + 1) i 0
    rw [Nat.zero_add] at this
    rw [oneRepetition, this, List.getElem?_map]
    cases layers[i]? with
    | none => simp
    | some l =>
      have := inRepetition_le (K := K) l (n + 1)
      simp
      omega

/-- **C413.** In each repetition the layers of a winding are next to each other, in the order of the windings. -/
theorem stack_order (layers : List Nat) (n : Nat) :
    (oneRepetition (K := K) layers n).Pairwise (· ≤ ·) := by
  unfold oneRepetition
  have key : ∀ (l : List Nat) (k : Nat), ((l.zipIdx k).flatMap fun x => List.replicate (inRepetition (K := K) x.1 n) x.2).Pairwise (· ≤ ·) ∧
      ∀ y ∈ (l.zipIdx k).flatMap fun x => List.replicate (inRepetition (K := K) x.1 n) x.2, k ≤ y := by
    intro l
    induction l with
    | nil => intro k; simp
    | cons a l ih =>
      intro k
      obtain ⟨h1, h2⟩ := ih (k + 1)
      simp only [List.zipIdx_cons, List.flatMap_cons]
      refine ⟨List.pairwise_append.2 ⟨?_, h1, ?_⟩, ?_⟩
      · rw [List.pairwise_replicate]; right; exact le_refl _
      · intro x hx y hy
        have := (List.mem_replicate.1 hx).2
        have := h2 y hy
        omega
      · intro y hy
        rcases List.mem_append.1 hy with hy | hy
        · exact (List.mem_replicate.1 hy).2.ge
        · have := h2 y hy; omega
  exact (key layers 0).1

theorem modify_sum (l : List Nat) (i : Nat) (h : i < l.length) : (l.modify i (· + 1)).sum = l.sum + 1 := by
  induction l generalizing i with
  | nil => simp at h
  | cons a l ih =>
    cases i with
    | zero => simp [List.modify]; omega
    | succ i =>
      have := ih i (by simpa using h)
      simp only [List.modify_succ_cons, List.sum_cons]
      omega

theorem floors_le (total : Nat) (shares : List K) (hs : ∀ p ∈ shares, 0 ≤ p) :
    (((shares.map fun p => ⌊(total : K) * p⌋₊).sum : Nat) : K) ≤ (total : K) * shares.sum := by
  induction shares with
  | nil => simp
  | cons a l ih =>
    have h1 := ih fun p hp => hs p (List.mem_cons_of_mem _ hp)
    have h2 : ((⌊(total : K) * a⌋₊ : Nat) : K) ≤ (total : K) * a :=
      Nat.floor_le (mul_nonneg (Nat.cast_nonneg _) (hs a (List.mem_cons_self ..)))
    simp only [List.map_cons, List.sum_cons]
    push_cast
    rw [mul_add]
    push_cast at h1
    linarith

/-- **C413.** Shares of the whole window give out all the layers there are. -/
theorem allocated (total : Nat) (shares : List K) (hs : ∀ p ∈ shares, 0 ≤ p) (h : shares.sum = 1) :
    ∃ l, allocate total shares = some l ∧ l.length = shares.length ∧ l.sum = total := by
  have hne : shares ≠ [] := by rintro rfl; simp at h
  have hle : (shares.map fun p => ⌊(total : K) * p⌋₊).sum ≤ total := by
    have := floors_le total shares hs
    rw [h, mul_one] at this
    exact_mod_cast this
  have key : ∀ (n : Nat) (f : List Nat), f.length = shares.length →
      ((List.range n).foldl (fun l i => l.modify (i % shares.length) (· + 1)) f).length = shares.length ∧
      ((List.range n).foldl (fun l i => l.modify (i % shares.length) (· + 1)) f).sum = f.sum + n := by
    intro n
    induction n with
    | zero => intro f hf; exact ⟨hf, rfl⟩
    | succ n ih =>
      intro f hf
      obtain ⟨g1, g2⟩ := ih f hf
      rw [List.range_succ, List.foldl_append]
      simp only [List.foldl_cons, List.foldl_nil]
      refine ⟨by rw [List.length_modify, g1], ?_⟩
      rw [modify_sum _ _ (by rw [g1]; exact Nat.mod_lt _ (List.length_pos_iff.2 hne)), g2]
      omega
  obtain ⟨g1, g2⟩ := key (total - (shares.map fun p => ⌊(total : K) * p⌋₊).sum) (shares.map fun p => ⌊(total : K) * p⌋₊) (by simp)
  refine ⟨_, by unfold allocate; simp only [if_pos hle], g1, ?_⟩
  rw [g2]; omega

theorem bounded_le (b : Bound) (n : Nat) (h : b.parallels ≤ 1) : bounded b n ≤ n ∧ bounded b n ≤ b.needed := by
  unfold bounded
  simp only [if_neg (by omega : ¬ 1 < b.parallels)]
  cases b.byHeight with
  | none => exact ⟨min_le_left _ _, min_le_right _ _⟩
  | some h => exact ⟨(min_le_left _ _).trans (min_le_left _ _), (min_le_left _ _).trans (min_le_right _ _)⟩

theorem stackFrom_length (repetitions : Nat) (layers : List Nat) (h : 0 < repetitions) :
    (stackFrom (K := K) repetitions layers).length = layers.sum := by
  have one : ∀ (l : List Nat) (k n : Nat),
      ((l.zipIdx k).flatMap fun x => List.replicate (inRepetition (K := K) x.1 n) x.2).length =
        (l.map fun x => inRepetition (K := K) x n).sum := by
    intro l
    induction l with
    | nil => intro k n; simp
    | cons a l ih =>
      intro k n
      simp only [List.zipIdx_cons, List.flatMap_cons, List.length_append, List.length_replicate, List.map_cons, List.sum_cons, ih]
  obtain ⟨n, rfl⟩ : ∃ n, repetitions = n + 1 := ⟨repetitions - 1, by omega⟩
  clear h
  induction n generalizing layers with
  | zero =>
    simp only [stackFrom, oneRepetition, List.append_nil, Nat.zero_add]
    rw [one]
    simp [inRepetition_one]
  | succ n ih =>
    rw [stackFrom, List.length_append, ih, oneRepetition, one]
    induction layers with
    | nil => rfl
    | cons a l ih2 =>
      have := inRepetition_le (K := K) a (n + 1)
      simp only [List.map_cons, List.sum_cons] at ih2 ⊢
      omega

/-- **C413.** The stack has at most the layers that are set as the maximum, when no winding has parallels. -/
theorem stack_within_partial (total : Nat) (shares : List K) (bounds : List Bound) (pattern : List Nat) (repetitions : Nat)
    (hs : ∀ p ∈ shares, 0 ≤ p) (h : shares.sum = 1) (hr : 0 < repetitions) (hb : ∀ b ∈ bounds, b.parallels ≤ 1) :
    ∃ l, stackUp total shares bounds pattern repetitions = some l ∧ l.length ≤ total ∧
      ∀ (i : Nat) (b : Bound), bounds[i]? = some b → l.count i ≤ b.needed := by
  obtain ⟨a, ha, hlen, hsum⟩ := allocated total shares hs h
  refine ⟨_, by unfold stackUp; rw [ha]; rfl, ?_, ?_⟩
  · rw [stackFrom_length _ _ hr, ← hsum]
    clear ha hlen hsum
    induction a generalizing bounds with
    | nil => simp
    | cons x a ih =>
      cases bounds with
      | nil => simp
      | cons b bounds =>
        have h1 := ih bounds fun b' hb' => hb b' (List.mem_cons_of_mem _ hb')
        have h2 := (bounded_le b x (hb b (List.mem_cons_self ..))).1
        simp only [List.zipWith_cons_cons, List.sum_cons]
        omega
  · intro i b hi
    rw [stack_count (K := K) _ _ i hr, List.getElem?_zipWith]
    cases hx : a[i]? with
    | none => simp
    | some x =>
      rw [hi]
      exact (bounded_le b x (hb b (List.mem_of_getElem? hi))).2

/-- **C413.** With parallels a winding gets a layer for each of them, whatever the maximum. -/
theorem parallels_over :
    stackUp (K := ℚ) 2 [1 / 2, 1 / 2] [⟨1, none, 4⟩, ⟨1, none, 1⟩] [0, 1] 1 = some [0, 0, 0, 0, 1] := by decide +kernel

/-- **C413.** The pattern asked for makes no difference: the second winding is not put first when it should. -/
theorem pattern_unused (total : Nat) (shares : List K) (bounds : List Bound) (p q : List Nat) (repetitions : Nat) :
    stackUp total shares bounds p repetitions = stackUp total shares bounds q repetitions ∧
      stackUp (K := ℚ) 2 [1 / 2, 1 / 2] [⟨1, none, 1⟩, ⟨1, none, 1⟩] [1, 0] 1 = some [0, 1] :=
  ⟨rfl, by decide +kernel⟩

/-- **C413.** With fewer layers than windings some have none. -/
theorem no_layer :
    stackUp (K := ℚ) 1 [1 / 2, 1 / 2] [⟨1, none, 1⟩, ⟨1, none, 1⟩] [0, 1] 1 = some [0] := by decide +kernel

example : stackUp (K := ℚ) 10 [1 / 2, 1 / 2] [⟨3, none, 1⟩, ⟨4, some 2, 1⟩] [0, 1] 2 = some [0, 0, 1, 0, 1] := by
  decide +kernel
example : ∀ p ∈ ([1 / 2, 1 / 2] : List ℚ), 0 ≤ p := by decide +kernel
example : ([1 / 2, 1 / 2] : List ℚ).sum = 1 := by decide +kernel

end Verif.CoilAdvice
