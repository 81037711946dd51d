import Verif.StrayCapacitance.StaticProps
import Mathlib.Algebra.BigOperators.Ring.Finset
import Mathlib.Tactic.Positivity

/-!
# Networks and matrices derived from the capacitances among windings

C147.
-/

set_option linter.unusedSectionVars false

namespace Verif.StrayCapacitance

variable {K : Type} [Field K] [LinearOrder K] [IsStrictOrderedRing K]

namespace Spec

/-- Energy stored by six capacitors among four terminals, connected as the comment of 1825-1830 says; `p`, `m` are the potentials of the
ends of the first winding and `q`, `n` those of the second. -/
def networkEnergy (s : SixCap K) (p m q n : K) : K :=
  1 / 2 * (s.c1 * (p - m) ^ 2 + s.c2 * (q - n) ^ 2 + s.c3 * (p - q) ^ 2 + s.c4 * (m - n) ^ 2 +
    s.c5 * (p - n) ^ 2 + s.c6 * (m - q) ^ 2)

/-- Energy of a capacitance spread evenly along two windings whose potentials change evenly from one end to the other, in `k` equal
pieces. -/
def piecesEnergy (c0 : K) (k : Nat) (p m q n : K) : K :=
  ∑ i ∈ Finset.range k, 1 / 2 * (c0 / (k : K)) *
    ((p - q) + ((m - n) - (p - q)) * ((2 * (i : K) + 1) / (2 * (k : K)))) ^ 2

/-- Quadratic form of a matrix of names. -/
def form (ws : List String) (M : String → String → K) (x : String → K) : K :=
  (ws.map fun a => (ws.map fun b => M a b * x a * x b).sum).sum

end Spec

/-- C147: the energy stored in the network of six capacitors is that of the capacitance between the windings at the mean of the square
of the difference of their potentials, those changing evenly along each; so it is never negative although two of the
capacitors are. -/
theorem six_capacitors_energy (c0 p m q n : K) :
    Spec.networkEnergy (sixCap c0) p m q n =
      1 / 2 * c0 * (((p - q) ^ 2 + (p - q) * (m - n) + (m - n) ^ 2) / 3) := by
  unfold Spec.networkEnergy sixCap
  ring

theorem six_capacitors_nonneg {c0 : K} (h : 0 ≤ c0) (p m q n : K) : 0 ≤ Spec.networkEnergy (sixCap c0) p m q n := by
  rw [six_capacitors_energy]
  have : 0 ≤ (p - q) ^ 2 + (p - q) * (m - n) + (m - n) ^ 2 := by nlinarith [sq_nonneg ((p - q) + (m - n)), sq_nonneg (p - q), sq_nonneg (m - n)]
  positivity

theorem sum_odd (k : Nat) : ∑ i ∈ Finset.range k, (2 * (i : K) + 1) = (k : K) ^ 2 := by
  induction k with
  | zero => simp
  | succ k ih => rw [Finset.sum_range_succ, ih]; push_cast; ring

theorem sum_odd_sq (k : Nat) : ∑ i ∈ Finset.range k, (2 * (i : K) + 1) ^ 2 = (k : K) * (4 * (k : K) ^ 2 - 1) / 3 := by
  induction k with
  | zero => simp
  | succ k ih => rw [Finset.sum_range_succ, ih]; push_cast; ring

/-- C147: cutting both windings in more and more equal pieces, the energy comes as close to that of the network as wanted. -/
theorem six_capacitors_limit (c0 p m q n : K) {k : Nat} (hk : 0 < k) :
    Spec.networkEnergy (sixCap c0) p m q n - Spec.piecesEnergy c0 k p m q n =
      c0 * ((m - n) - (p - q)) ^ 2 / (24 * (k : K) ^ 2) := by
  rw [six_capacitors_energy]
  have hk' : (k : K) ≠ 0 := by exact_mod_cast hk.ne'
  unfold Spec.piecesEnergy
  generalize p - q = u
  generalize m - n = w
  have e : ∀ i ∈ Finset.range k, 1 / 2 * (c0 / (k : K)) * (u + (w - u) * ((2 * (i : K) + 1) / (2 * (k : K)))) ^ 2 =
      1 / 2 * (c0 / (k : K)) * u ^ 2 + 1 / 2 * (c0 / (k : K)) * (u * (w - u) / (k : K)) * (2 * (i : K) + 1) +
        1 / 2 * (c0 / (k : K)) * ((w - u) ^ 2 / (4 * (k : K) ^ 2)) * (2 * (i : K) + 1) ^ 2 := by
    intro i _
    field_simp
    ring
  rw [Finset.sum_congr rfl e, Finset.sum_add_distrib, Finset.sum_add_distrib, Finset.sum_const, ← Finset.mul_sum,
    ← Finset.mul_sum, sum_odd, sum_odd_sq, Finset.card_range, nsmul_eq_mul]
  field_simp
  ring

/-! ## Tripoles -/

theorem lastWritten_append {α V : Type} [DecidableEq α] (l1 l2 : List (α × V)) (k : α) :
    lastWritten (l1 ++ l2) k = (lastWritten l2 k).or (lastWritten l1 k) := by
  unfold lastWritten
  rw [List.reverse_append, List.find?_append]
  cases l2.reverse.find? (fun q => q.1 = k) <;> simp

theorem lastWritten_of_not {α V : Type} [DecidableEq α] {m : List (α × V)} {k : α} (h : ∀ q ∈ m, q.1 ≠ k) :
    lastWritten m k = none := by
  cases hl : lastWritten m k with
  | none => rfl
  | some v => exact absurd rfl (h _ (lastWritten_mem hl))

/-- When all the values written for a key are the same, that is the one read. -/
theorem lastWritten_of_all {α V : Type} [DecidableEq α] {m : List (α × V)} {k : α} {v : V} (hin : (k, v) ∈ m)
    (hall : ∀ q ∈ m, q.1 = k → q.2 = v) : lastWritten m k = some v := by
  cases hl : lastWritten m k with
  | none => exact absurd rfl (lastWritten_none hl _ hin)
  | some w => rw [← hall _ (lastWritten_mem hl) rfl]

theorem tripoleWrites_keys {ws : List String} {st : String → String → Option K} {q : (String × String) × Tripole K}
    (h : q ∈ tripoleWrites ws st) : q.1.1 ∈ ws ∧ q.1.2 ∈ ws := by
  induction ws with
  | nil => cases h
  | cons wi rest ih =>
    rw [tripoleWrites, List.mem_append] at h
    rcases h with h | h
    · rw [List.mem_flatMap] at h
      obtain ⟨wj, hj, h⟩ := h
      cases hs : st wi wj with
      | none => simp [hs] at h
      | some c =>
        simp only [hs, List.mem_cons, List.not_mem_nil, or_false] at h
        rcases h with h | h <;> rw [h] <;> simp [hj]
    · have := ih h
      exact ⟨List.mem_cons_of_mem _ this.1, List.mem_cons_of_mem _ this.2⟩

/-- C147: for two windings, the one listed first and the other, the tripole has the capacitance of the first, that of the second and that
between them; the same tripole is reported for both orders of the names. -/
theorem tripoles_are {ws : List String} (hn : ws.Nodup) (st : String → String → Option K) {pre post : List String}
    {wi wj : String} (hws : ws = pre ++ wi :: post) (hj : wj ∈ post) {cii cjj cij : K}
    (hi : st wi wi = some cii) (hjj : st wj wj = some cjj) (hij : st wi wj = some cij) :
    tripole ws st wi wj = some { c1 := cii, c2 := cjj, c3 := cij } ∧
    tripole ws st wj wi = some { c1 := cii, c2 := cjj, c3 := cij } := by
  unfold tripole
  subst hws
  induction pre with
  | nil =>
    rw [List.nil_append] at hn ⊢
    rw [tripoleWrites]
    have hni : wi ∉ post := (List.nodup_cons.mp hn).1
    have hne : wi ≠ wj := fun h => hni (h ▸ hj)
    have base : ∀ k : String × String, (k.1 = wi ∨ k.2 = wi) → lastWritten (tripoleWrites post st) k = none := by
      intro k hk
      apply lastWritten_of_not
      intro q hq he
      have := tripoleWrites_keys hq
      rw [he] at this
      rcases hk with h | h <;> rw [h] at this
      · exact hni this.1
      · exact hni this.2
    rw [lastWritten_append, lastWritten_append, base (wi, wj) (Or.inl rfl), base (wj, wi) (Or.inr rfl)]
    simp only [Option.none_or]
    constructor
    · apply lastWritten_of_all
      · rw [List.mem_flatMap]
        exact ⟨wj, hj, by simp [hij, hi, hjj]⟩
      · intro q hq hk
        rw [List.mem_flatMap] at hq
        obtain ⟨w, hw, hq⟩ := hq
        cases hs : st wi w with
        | none => simp [hs] at hq
        | some c =>
          simp only [hs, List.mem_cons, List.not_mem_nil, or_false] at hq
          rcases hq with h | h
          · rw [h] at hk
            simp only [Prod.mk.injEq, true_and] at hk
            rw [h, hk]
            rw [hk, hij] at hs
            injection hs with hs
            simp [hi, hjj, hs]
          · rw [h] at hk
            simp only [Prod.mk.injEq] at hk
            exact absurd (hk.1 ▸ hw) hni
    · apply lastWritten_of_all
      · rw [List.mem_flatMap]
        exact ⟨wj, hj, by simp [hij, hi, hjj]⟩
      · intro q hq hk
        rw [List.mem_flatMap] at hq
        obtain ⟨w, hw, hq⟩ := hq
        cases hs : st wi w with
        | none => simp [hs] at hq
        | some c =>
          simp only [hs, List.mem_cons, List.not_mem_nil, or_false] at hq
          rcases hq with h | h
          · rw [h] at hk
            simp only [Prod.mk.injEq] at hk
            exact absurd hk.1 hne
          · rw [h] at hk
            simp only [Prod.mk.injEq, and_true] at hk
            rw [h, hk]
            rw [hk, hij] at hs
            injection hs with hs
            simp [hi, hjj, hs]
  | cons w pre ih =>
    rw [List.cons_append] at hn ⊢
    rw [tripoleWrites, lastWritten_append, lastWritten_append]
    have h := ih (List.nodup_cons.mp hn).2
    rw [h.1, h.2]
    simp

/-- C147 as the comment of 2055-2056 has it (C1 the capacitance of the first winding) does not hold when the tripole is read from the
winding listed second: what is reported under (second, first) has the capacitance of the other winding as C1. -/
theorem tripole_not_swapped :
    ∃ (st : String → String → Option ℚ), (∀ a b, st a b = st b a) ∧ st "b" "b" = some 2 ∧
      tripole ["a", "b"] st "b" "a" = some { c1 := 1, c2 := 2, c3 := 3 } := by
  refine ⟨fun a b => if a = b then (if a = "a" then some 1 else some 2) else some 3, ?_, by decide, by decide +kernel⟩
  intro a b
  by_cases h : a = b
  · rw [h]
  · simp only [if_neg h, if_neg (Ne.symm h)]

/-! ## The matrix -/

theorem mem_maxwellRow {ws : List String} {c : String → String → Option K} {a : String} {q : (String × String) × K} :
    q ∈ maxwellRow ws c a ↔
      (∃ b ∈ ws, ∃ x, c a b = some x ∧ a ≠ b ∧ (q = ((a, b), -x) ∨ q = ((b, a), -x))) ∨
      q = ((a, a), (ws.map fun b => (c a b).getD 0).sum) := by
  unfold maxwellRow
  rw [List.mem_append, List.mem_flatMap]
  constructor
  · rintro (⟨b, hb, h⟩ | h)
    · left
      cases hc : c a b with
      | none => simp [hc] at h
      | some x =>
        by_cases hne : a = b
        · rw [hc] at h
          simp [hne] at h
        · simp only [hc, ne_eq, hne, not_false_eq_true, if_true, List.mem_cons, List.not_mem_nil, or_false] at h
          exact ⟨b, hb, x, hc, hne, h⟩
    · right
      simpa using h
  · rintro (⟨b, hb, x, hc, hne, h⟩ | h)
    · left
      refine ⟨b, hb, ?_⟩
      simp only [hc, ne_eq, hne, not_false_eq_true, if_true, List.mem_cons, List.not_mem_nil, or_false]
      exact h
    · right
      simp [h]

/-- C147: the matrix is refused exactly if one of the windings has no row in the table. -/
theorem maxwell_refused_iff (ws rows : List String) (c : String → String → Option K) :
    (∃ M, maxwell ws rows c = .ok M) ↔ ∀ a ∈ ws, a ∈ rows := by
  unfold maxwell
  by_cases h : ws.all (fun a => decide (a ∈ rows)) = true
  · rw [if_pos h]
    simp only [List.all_eq_true, decide_eq_true_eq] at h
    exact ⟨fun _ => h, fun _ => ⟨_, rfl⟩⟩
  · rw [if_neg h]
    simp only [List.all_eq_true, decide_eq_true_eq] at h
    constructor
    · rintro ⟨M, hM⟩
      cases hM
    · intro h2
      exact absurd h2 h

/-- C147: from a symmetric table, the matrix has what is between two windings with its sign changed, and for each winding the sum of its
row of the table. -/
theorem maxwell_values {ws rows : List String} {c : String → String → Option K} {M : String → String → Option K}
    (h : maxwell ws rows c = .ok M) (hsym : ∀ a b, c a b = c b a) :
    (∀ a ∈ ws, M a a = some (ws.map fun b => (c a b).getD 0).sum) ∧
    (∀ a ∈ ws, ∀ b ∈ ws, a ≠ b → ∀ x, c a b = some x → M a b = some (-x)) := by
  unfold maxwell at h
  split at h
  · injection h with h
    subst h
    constructor
    · intro a ha
      apply lastWritten_of_all
      · rw [List.mem_flatMap]
        exact ⟨a, ha, mem_maxwellRow.mpr (Or.inr rfl)⟩
      · intro q hq hk
        rw [List.mem_flatMap] at hq
        obtain ⟨r, hr, hq⟩ := hq
        rcases mem_maxwellRow.mp hq with ⟨b, hb, x, hc, hne, h | h⟩ | h
        · rw [h] at hk
          simp only [Prod.mk.injEq] at hk
          exact absurd (hk.1.trans hk.2.symm) hne
        · rw [h] at hk
          simp only [Prod.mk.injEq] at hk
          exact absurd (hk.2.trans hk.1.symm) hne
        · rw [h] at hk ⊢
          simp only [Prod.mk.injEq, and_self] at hk
          rw [hk]
    · intro a ha b hb hne x hx
      apply lastWritten_of_all
      · rw [List.mem_flatMap]
        exact ⟨a, ha, mem_maxwellRow.mpr (Or.inl ⟨b, hb, x, hx, hne, Or.inl rfl⟩)⟩
      · intro q hq hk
        rw [List.mem_flatMap] at hq
        obtain ⟨r, hr, hq⟩ := hq
        rcases mem_maxwellRow.mp hq with ⟨s, hs, y, hc, hrs, h | h⟩ | h
        · rw [h] at hk ⊢
          simp only [Prod.mk.injEq] at hk
          rw [hk.1, hk.2, hx] at hc
          injection hc with hc
          rw [hc]
        · rw [h] at hk ⊢
          simp only [Prod.mk.injEq] at hk
          rw [hk.1, hk.2, hsym, hx] at hc
          injection hc with hc
          rw [hc]
        · rw [h] at hk
          simp only [Prod.mk.injEq] at hk
          exact absurd (hk.1.symm.trans hk.2) hne
  · cases h

theorem sum_map_sub {α : Type} (l : List α) (f g : α → K) : (l.map f).sum - (l.map g).sum = (l.map fun a => f a - g a).sum := by
  induction l with
  | nil => simp
  | cons a l ih => simp only [List.map_cons, List.sum_cons]; rw [← ih]; ring

theorem sum_swap {α : Type} (l m : List α) (f : α → α → K) :
    (l.map fun a => (m.map fun b => f a b).sum).sum = (m.map fun b => (l.map fun a => f a b).sum).sum := by
  induction l with
  | nil => simp
  | cons a l ih =>
    simp only [List.map_cons, List.sum_cons]
    rw [ih]
    clear ih
    induction m with
    | nil => simp
    | cons b m ih => simp only [List.map_cons, List.sum_cons]; rw [← ih]; ring

theorem sum_single {ws : List String} (hn : ws.Nodup) {a : String} (ha : a ∈ ws) (f : String → K) :
    (ws.map fun b => if a = b then f b else 0).sum = f a := by
  induction ws with
  | nil => cases ha
  | cons w ws ih =>
    rw [List.map_cons, List.sum_cons]
    have hw := (List.nodup_cons.mp hn)
    rcases List.mem_cons.mp ha with h | h
    · rw [if_pos h, h]
      have : (ws.map fun b => if w = b then f b else 0) = ws.map fun _ => (0 : K) := by
        apply List.map_congr_left
        intro b hb
        rw [if_neg]
        rintro rfl
        exact hw.1 hb
      rw [this]
      simp
    · rw [if_neg, zero_add, ih hw.2 h]
      rintro rfl
      exact hw.1 h

/-- C147: the matrix applied to potentials gives the energy (twice it) of the capacitances of the windings at their potentials and of
those between them at the differences. -/
theorem maxwell_energy {ws rows : List String} (hn : ws.Nodup) {c : String → String → Option K} {M : String → String → Option K}
    (h : maxwell ws rows c = .ok M) (hsym : ∀ a b, c a b = c b a) (hall : ∀ a ∈ ws, ∀ b ∈ ws, ∃ x, c a b = some x)
    (x : String → K) :
    Spec.form ws (fun a b => (M a b).getD 0) x =
      (ws.map fun a => (c a a).getD 0 * x a ^ 2).sum +
      1 / 2 * (ws.map fun a => (ws.map fun b => (c a b).getD 0 * (x a - x b) ^ 2).sum).sum := by
  obtain ⟨hd, ho⟩ := maxwell_values h hsym
  -- each row
  have row : ∀ a ∈ ws, (ws.map fun b => (M a b).getD 0 * x a * x b).sum =
      (c a a).getD 0 * x a ^ 2 + (ws.map fun b => (c a b).getD 0 * (x a ^ 2 - x a * x b)).sum := by
    intro a ha
    have e : (ws.map fun b => (M a b).getD 0 * x a * x b) =
        ws.map fun b => (if a = b then ((ws.map fun b => (c a b).getD 0).sum + (c a a).getD 0) * x b ^ 2 else 0) -
          (c a b).getD 0 * (x a * x b) := by
      apply List.map_congr_left
      intro b hb
      by_cases hab : a = b
      · subst hab
        rw [if_pos rfl, hd a ha]
        simp only [Option.getD_some]
        ring
      · obtain ⟨y, hy⟩ := hall a ha b hb
        rw [if_neg hab, ho a ha b hb hab y hy, hy]
        simp only [Option.getD_some]
        ring
    rw [e, ← sum_map_sub, sum_single hn ha fun b => ((ws.map fun b => (c a b).getD 0).sum + (c a a).getD 0) * x b ^ 2]
    have e2 : (ws.map fun b => (c a b).getD 0 * (x a ^ 2 - x a * x b)) =
        ws.map fun b => (c a b).getD 0 * x a ^ 2 - (c a b).getD 0 * (x a * x b) := by
      apply List.map_congr_left
      intro b _
      ring
    rw [e2, ← sum_map_sub, List.sum_map_mul_right]
    ring
  unfold Spec.form
  have e1 : (ws.map fun a => (ws.map fun b => (M a b).getD 0 * x a * x b).sum) =
      ws.map fun a => (c a a).getD 0 * x a ^ 2 + (ws.map fun b => (c a b).getD 0 * (x a ^ 2 - x a * x b)).sum :=
    List.map_congr_left row
  rw [e1, List.sum_map_add]
  congr 1
  -- the double sum, by exchanging the names
  have sw := sum_swap ws ws fun a b => (c a b).getD 0 * (x a ^ 2 - x a * x b)
  have sw2 : (ws.map fun b => (ws.map fun a => (c a b).getD 0 * (x a ^ 2 - x a * x b)).sum) =
      ws.map fun a => (ws.map fun b => (c a b).getD 0 * (x b ^ 2 - x a * x b)).sum := by
    apply List.map_congr_left
    intro a _
    congr 1
    apply List.map_congr_left
    intro b _
    rw [hsym b a]
    ring
  rw [sw2] at sw
  have tot : (ws.map fun a => (ws.map fun b => (c a b).getD 0 * (x a - x b) ^ 2).sum).sum =
      (ws.map fun a => (ws.map fun b => (c a b).getD 0 * (x a ^ 2 - x a * x b)).sum).sum +
      (ws.map fun a => (ws.map fun b => (c a b).getD 0 * (x b ^ 2 - x a * x b)).sum).sum := by
    rw [← List.sum_map_add]
    congr 1
    apply List.map_congr_left
    intro a _
    rw [← List.sum_map_add]
    congr 1
    apply List.map_congr_left
    intro b _
    ring
  rw [tot, ← sw]
  ring

/-- C147: with capacitances which are not negative no potentials give a negative energy. -/
theorem maxwell_passive {ws rows : List String} (hn : ws.Nodup) {c : String → String → Option K} {M : String → String → Option K}
    (h : maxwell ws rows c = .ok M) (hsym : ∀ a b, c a b = c b a) (hall : ∀ a ∈ ws, ∀ b ∈ ws, ∃ x, c a b = some x)
    (hpos : ∀ a b x, c a b = some x → 0 ≤ x) (x : String → K) :
    0 ≤ Spec.form ws (fun a b => (M a b).getD 0) x := by
  have hg : ∀ a b, 0 ≤ (c a b).getD 0 := by
    intro a b
    cases hc : c a b with
    | none => simp
    | some y => exact hpos a b y hc
  rw [maxwell_energy hn h hsym hall x]
  apply add_nonneg
  · apply List.sum_nonneg
    intro y hy
    obtain ⟨a, -, rfl⟩ := List.mem_map.mp hy
    have := hg a a
    positivity
  · apply mul_nonneg (by norm_num)
    apply List.sum_nonneg
    intro y hy
    obtain ⟨a, -, rfl⟩ := List.mem_map.mp hy
    apply List.sum_nonneg
    intro z hz
    obtain ⟨b, -, rfl⟩ := List.mem_map.mp hz
    have := hg a b
    positivity

/-- The sum of a row of the matrix is the capacitance of the winding itself. -/
theorem maxwell_row_sum {ws rows : List String} (hn : ws.Nodup) {c : String → String → Option K} {M : String → String → Option K}
    (h : maxwell ws rows c = .ok M) (hsym : ∀ a b, c a b = c b a) (hall : ∀ a ∈ ws, ∀ b ∈ ws, ∃ x, c a b = some x)
    {a : String} (ha : a ∈ ws) : (ws.map fun b => (M a b).getD 0).sum = (c a a).getD 0 := by
  obtain ⟨hd, ho⟩ := maxwell_values h hsym
  have e : (ws.map fun b => (M a b).getD 0) =
      ws.map fun b => (if a = b then (ws.map fun b => (c a b).getD 0).sum + (c a a).getD 0 else 0) - (c a b).getD 0 := by
    apply List.map_congr_left
    intro b hb
    by_cases hab : a = b
    · subst hab
      rw [if_pos rfl, hd a ha]
      simp
    · obtain ⟨y, hy⟩ := hall a ha b hb
      rw [if_neg hab, ho a ha b hb hab y hy, hy]
      simp
  rw [e, ← sum_map_sub, sum_single hn ha fun _ => (ws.map fun b => (c a b).getD 0).sum + (c a a).getD 0]
  ring

/-- The table of `among_windings_symmetric` meets the hypotheses: the matrix of a coil with voltages which are not negative. -/
theorem maxwell_of_coil {c : Coil K} (hself : ∀ a, c.cap a a = none) (hv : ∀ i, 0 ≤ c.volt i)
    (hn : (c.windings.map (·.name)).Nodup) :
    ∃ st M, amongWindings c = .ok st ∧ maxwell (c.windings.map (·.name)) (c.windings.map (·.name)) st = .ok M ∧
      (∀ a b, st a b = st b a) ∧
      ∀ a ∈ c.windings.map (·.name), ∀ b ∈ c.windings.map (·.name), ∃ x, st a b = some x := by
  obtain ⟨st, hst⟩ := among_windings_never_refused hself hv
  obtain ⟨M, hM⟩ := (maxwell_refused_iff (c.windings.map (·.name)) (c.windings.map (·.name)) st).mpr fun a ha => ha
  refine ⟨st, M, hst, hM, among_windings_symmetric hst, ?_⟩
  intro a ha b hb
  obtain ⟨wa, hwa, rfl⟩ := List.mem_map.mp ha
  obtain ⟨wb, hwb, rfl⟩ := List.mem_map.mp hb
  obtain ⟨pre, post, hsplit⟩ := List.append_of_mem hwa
  by_cases h : wb ∈ wa :: post
  · obtain ⟨x, -, hx, -⟩ := among_windings_value hst hn hsplit h
    exact ⟨x, hx⟩
  · have hpre : wb ∈ pre := by
      rw [hsplit, List.mem_append] at hwb
      exact hwb.resolve_right h
    obtain ⟨p1, p2, hp⟩ := List.append_of_mem hpre
    have : c.windings = p1 ++ wb :: (p2 ++ wa :: post) := by rw [hsplit, hp]; simp
    obtain ⟨x, -, -, hx⟩ := among_windings_value hst hn this (wj := wa) (by simp)
    exact ⟨x, hx⟩

example : ∃ M, maxwell ["a", "b"] ["a", "b"] (fun a b => if a = b then some (1 : ℚ) else some 2) = .ok M ∧
    M "a" "a" = some 3 ∧ M "a" "b" = some (-2) := ⟨_, rfl, by decide +kernel, by decide +kernel⟩

end Verif.StrayCapacitance
