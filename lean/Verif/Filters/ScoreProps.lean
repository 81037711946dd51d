import Mathlib.Tactic.Linarith
import Mathlib.Tactic.Ring
import Mathlib.Tactic.Positivity
import Mathlib.Tactic.NormNum
import Mathlib.Tactic.GCongr
import Mathlib.Data.Rat.Defs
import Mathlib.Algebra.Order.Ring.Rat
import Mathlib.Algebra.BigOperators.Group.List.Basic
import Verif.Filters.Gates

/-! # Properties of the filters that only score -/

set_option linter.unusedSimpArgs false
set_option linter.unusedSectionVars false
set_option linter.unusedVariables false

namespace Verif.Filters.Gates

variable {K : Type} [Field K] [LinearOrder K] [IsStrictOrderedRing K]

theorem sum_ge (b : K) (l : List K) (h : ∀ x ∈ l, b ≤ x) : l.length * b ≤ l.sum := by
  induction l with
  | nil => simp
  | cons x l ih =>
    have h1 := h x (by simp)
    have h2 := ih fun y hy => h y (by simp [hy])
    simp only [List.sum_cons, List.length_cons, Nat.cast_add, Nat.cast_one]
    linarith [add_mul (l.length : K) 1 b]

theorem sum_le (b : K) (l : List K) (h : ∀ x ∈ l, x ≤ b) : l.sum ≤ l.length * b := by
  induction l with
  | nil => simp
  | cons x l ih =>
    have h1 := h x (by simp)
    have h2 := ih fun y hy => h y (by simp [hy])
    simp only [List.sum_cons, List.length_cons, Nat.cast_add, Nat.cast_one]
    linarith [add_mul (l.length : K) 1 b]

/-- **C418.** A component is rejected, with score zero, exactly when there are operating points and the first one has not as
many excitations as there are windings. -/
theorem windings_accepted (excited : Option ℕ) (scores : List K) :
    ((perWinding excited scores).valid = false ↔ ∃ n, excited = some n ∧ n ≠ scores.length) ∧
    ((perWinding excited scores).valid = false → (perWinding excited scores).score = .num 0) := by
  cases excited with
  | none => simp [perWinding]
  | some n =>
    by_cases h : scores.length = n
    · simp [perWinding, h]
    · simp [perWinding, h, rejected, Ne.symm h, eq_comm]

/-- **C418.** The score of an accepted component with windings is the mean: as many times it as windings are their sum, and it
is between any bounds of the scores of the windings. -/
theorem windings_mean (excited : Option ℕ) (scores : List K) (h : (perWinding excited scores).valid = true) (hne : scores ≠ []) :
    ∃ m, (perWinding excited scores).score = .num m ∧ m * scores.length = scores.sum ∧
      ∀ a b : K, (∀ x ∈ scores, a ≤ x ∧ x ≤ b) → a ≤ m ∧ m ≤ b := by
  have hl : scores.length ≠ 0 := by simpa using hne
  have hp : (0 : K) < scores.length := by exact_mod_cast Nat.pos_of_ne_zero hl
  refine ⟨scores.sum / scores.length, ?_, div_mul_cancel₀ _ hp.ne', fun a b hab => ⟨?_, ?_⟩⟩
  · cases excited with
    | none => simp [perWinding, mean, hne]
    | some n =>
      by_cases hn : scores.length = n
      · subst hn; simp [perWinding, mean, hne]
      · simp [perWinding, hn, rejected] at h
  · rw [le_div_iff₀ hp, mul_comm]
    exact sum_ge a scores fun x hx => (hab x hx).1
  · rw [div_le_iff₀ hp, mul_comm]
    exact sum_le b scores fun x hx => (hab x hx).2

/-- **C418.** A coil without windings is accepted with a score that is not a number, unless the first operating point has
excitations. -/
theorem windings_none (excited : Option ℕ) :
    (perWinding excited ([] : List K)).score = .nan ↔ excited = none ∨ excited = some 0 := by
  cases excited with
  | none => simp [perWinding, mean]
  | some n => cases n <;> simp [perWinding, mean, rejected]

/-- **C419.** The factor of proximity depends on the conductors only through how many there are in all, strands and parallels
alike; it grows with them and with the dimension, and falls with the depth of the skin. -/
theorem proximity_total (d s : K) (c : Option ℕ) (p n : ℕ) :
    proximityFactor d s c p n = proximityFactor d s none (c.getD 1 * p) n ∧ proximityFactor d s none p n = proximityFactor d s (some 1) p n ∧
      proximityFactor d s none p n = d / s * ((p * n : ℕ) : K) ^ 2 := by
  refine ⟨?_, ?_, ?_⟩ <;> simp [proximityFactor]

/-- **C419.** More conductors, parallels or turns, a thicker one or a thinner skin never lower the factor. -/
theorem proximity_grows (d d' s s' : K) (c c' p p' n n' : ℕ) (hd : 0 ≤ d) (hdd : d ≤ d') (hs : 0 < s') (hss : s' ≤ s) (hc : c ≤ c')
    (hp : p ≤ p') (hn : n ≤ n') : proximityFactor d s (some c) p n ≤ proximityFactor d' s' (some c') p' n' := by
  have h1 : (c : K) ≤ c' := by exact_mod_cast hc
  have h2 : (p : K) ≤ p' := by exact_mod_cast hp
  have h3 : (n : K) ≤ n' := by exact_mod_cast hn
  have h4 : 0 < s := hs.trans_le hss
  have h5 : 0 ≤ d' := hd.trans hdd
  unfold proximityFactor
  simp only [Option.getD_some]
  have hq : d / s ≤ d' / s' := by gcongr
  have hr : ((c : K) * p * n) ^ 2 ≤ ((c' : K) * p' * n') ^ 2 := by gcongr
  exact mul_le_mul hq hr (by positivity) (by positivity)

/-- **C419.** Twice the turns make four times the factor. -/
theorem proximity_square (d s : K) (c : Option ℕ) (p n k : ℕ) :
    proximityFactor d s c p (k * n) = (k : K) ^ 2 * proximityFactor d s c p n := by
  simp only [proximityFactor, Nat.cast_mul]; ring

/-- **C420.** No component is rejected for its turns, and the score is the turns of all windings times the width of the core;
the turns alone when the core is not processed or has no width. -/
theorem turns_score (turns : List ℕ) (width : Option K) :
    (turnCount turns width).valid = true ∧
    (∀ w, width = some w → 0 < w → (turnCount turns width).score = .num ((turns.sum : ℕ) * w)) ∧
    ((width = none ∨ ∃ w, width = some w ∧ w ≤ 0) → (turnCount turns width).score = .num (turns.sum : ℕ)) := by
  have hpos : (0 : K) ≤ ((turns.sum : ℕ) : K) := Nat.cast_nonneg _
  refine ⟨?_, ?_, ?_⟩
  · unfold turnCount
    simp only
    split
    · rfl
    · split
      · rfl
      · split <;> rfl
  · rintro w rfl hw
    unfold turnCount
    simp only
    by_cases h : ((turns.sum : ℕ) : K) ≤ 0
    · rw [if_pos h, le_antisymm h hpos, zero_mul]
    · rw [if_neg h, if_neg (not_le.2 hw)]
  · rintro (rfl | ⟨w, rfl, hw⟩) <;> unfold turnCount <;> simp only
    · by_cases h : ((turns.sum : ℕ) : K) ≤ 0
      · rw [if_pos h, le_antisymm h hpos]
      · rw [if_neg h]
    · by_cases h : ((turns.sum : ℕ) : K) ≤ 0
      · rw [if_pos h, le_antisymm h hpos]
      · rw [if_neg h, if_pos hw]

/-- **C420 (partial).** Of processed cores, fewer turns on a core that is not wider score no more. What is missing is cores that
are not processed: `unprocessed_turns`. -/
theorem fewer_turns_partial (a b : List ℕ) (v w : K) (hv : 0 < v) (hvw : v ≤ w) (h : a.sum ≤ b.sum) :
    ∃ x y, (turnCount a (some v)).score = .num x ∧ (turnCount b (some w)).score = .num y ∧ x ≤ y := by
  refine ⟨_, _, (turns_score a (some v)).2.1 v rfl hv, (turns_score b (some w)).2.1 w rfl (hv.trans_le hvw), ?_⟩
  have h' : ((a.sum : ℕ) : K) ≤ ((b.sum : ℕ) : K) := by exact_mod_cast h
  gcongr

/-- **C420.** Ten turns on a core that is not processed score worse than four hundred on a processed one of 20 mm. -/
theorem unprocessed_turns : (turnCount [10] (none : Option ℚ)).score = .num 10 ∧
    (turnCount [400] (some (1 / 50 : ℚ))).score = .num 8 := by
  refine ⟨(turns_score [10] none).2.2 (Or.inl rfl), ?_⟩
  rw [(turns_score [400] (some (1 / 50 : ℚ))).2.1 (1 / 50) rfl (by norm_num)]
  norm_num

theorem layers_sum (ls : List K) (c : K) : ls.foldl (fun acc l => acc + l * 2) c = c + 2 * ls.sum := by
  induction ls generalizing c with
  | nil => simp
  | cons l ls ih => rw [List.foldl_cons, ih, List.sum_cons]; ring

/-- **C421.** A component is rejected for its dimensions exactly when its core is of a planar family and the wires asked for are
wound; the score is the same in either case: the width and height of the core times the larger of its depth and that of the
coil, which is the column with every layer on both sides. -/
theorem dimensions_score (width height depth column : K) (layers : Option (List K)) (wound : Bool) (family : Family) :
    ((dimensions width height depth column layers wound family).valid = false ↔
      wound = true ∧ family ∈ [Family.planarE, .planarEl, .planarEr, .lp]) ∧
    (layers = none → (dimensions width height depth column layers wound family).score = .num (width * height * depth)) ∧
    ∀ ls, layers = some ls → (dimensions width height depth column layers wound family).score =
      .num (width * height * max depth (column + 2 * ls.sum)) := by
  refine ⟨?_, ?_, ?_⟩
  · cases wound <;> cases family <;> simp [dimensions]
  · rintro rfl; rfl
  · rintro ls rfl
    simp only [dimensions, layers_sum]

/-- **C421.** Layers never make a component smaller than its core, and more of them never make it smaller than fewer. -/
theorem dimensions_grow (width height depth column : K) (ls more : List K) (wound : Bool) (family : Family) (hw : 0 ≤ width)
    (hh : 0 ≤ height) (hm : ∀ l ∈ more, 0 ≤ l) :
    ∃ x y, (dimensions width height depth column (some ls) wound family).score = .num x ∧
      (dimensions width height depth column (some (ls ++ more)) wound family).score = .num y ∧
      width * height * depth ≤ x ∧ x ≤ y := by
  refine ⟨_, _, (dimensions_score width height depth column (some ls) wound family).2.2 ls rfl,
    (dimensions_score width height depth column (some (ls ++ more)) wound family).2.2 _ rfl, ?_, ?_⟩
  · exact mul_le_mul_of_nonneg_left (le_max_left _ _) (mul_nonneg hw hh)
  · refine mul_le_mul_of_nonneg_left (max_le_max (le_refl _) ?_) (mul_nonneg hw hh)
    have := sum_ge 0 more hm
    rw [List.sum_append]
    linarith [mul_zero (more.length : K)]

example : (perWinding (some 2) ([1, 3] : List ℚ)).valid = true := by decide +kernel
example : (perWinding (some 3) ([1, 3] : List ℚ)).valid = false := by decide +kernel
example : (0 : ℚ) ≤ 1 ∧ (1 : ℚ) ≤ 2 ∧ (0 : ℚ) < 1 ∧ (1 : ℚ) ≤ 3 := by norm_num
example : proximityFactor (1 : ℚ) 2 (some 3) 2 5 = 450 := by norm_num [proximityFactor]
example : (turnCount [10, 10] (some (1 / 50 : ℚ))).score = .num (2 / 5) := by
  rw [(turns_score [10, 10] (some (1 / 50 : ℚ))).2.1 (1 / 50) rfl (by norm_num)]; norm_num
example : (dimensions (2 : ℚ) 3 4 1 (some [1, 1]) true .lp).valid = false ∧
    (dimensions (2 : ℚ) 3 4 1 (some [1, 1]) true .other).score = .num 30 := by
  refine ⟨by decide +kernel, ?_⟩
  rw [(dimensions_score (2 : ℚ) 3 4 1 (some [1, 1]) true .other).2.2 [1, 1] rfl]; norm_num

end Verif.Filters.Gates
