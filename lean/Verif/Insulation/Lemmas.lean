import Verif.Insulation.Model
import Mathlib.Tactic.Linarith
import Mathlib.Tactic.FieldSimp
import Mathlib.Tactic.Ring
import Mathlib.Tactic.Positivity
import Mathlib.Tactic.NormNum
import Mathlib.Algebra.Order.Archimedean.Basic

/-! Helper lemmas for the insulation tables, the coordinator and the thickness search. -/

set_option linter.unusedSectionVars false
set_option linter.unusedSimpArgs false

namespace Verif.Insulation

variable {K : Type} [Field K] [LinearOrder K] [IsStrictOrderedRing K]

/-- The straight line through two rows. -/
def line (a b : K × K) (x : K) : K := a.2 + (x - a.1) / (b.1 - a.1) * (b.2 - a.2)

/-- Piecewise linear continuation from row `a` on, with the last segment prolonged. -/
def pl (x : K) : K × K → Table K → K
  | a, [] => a.2
  | a, [b] => line a b x
  | a, b :: c :: l => if x ≤ b.1 then line a b x else pl x b (c :: l)

/-- Rows increasing: strictly in the abscissa, weakly in the value. -/
def Incr : Table K → Prop := List.Pairwise (fun a b => a.1 < b.1 ∧ a.2 ≤ b.2)

theorem Incr.tail {a : K × K} {l : Table K} (h : Incr (a :: l)) : Incr l := (List.pairwise_cons.mp h).2

theorem Incr.head {a b : K × K} {l : Table K} (h : Incr (a :: b :: l)) : a.1 < b.1 ∧ a.2 ≤ b.2 :=
  (List.pairwise_cons.mp h).1 b (by simp)

theorem lastRow_mem (a : K × K) (l : Table K) : lastRow a l ∈ a :: l := by
  induction l generalizing a with
  | nil => simp [lastRow]
  | cons b l ih => exact List.mem_cons_of_mem _ (ih b)

theorem Incr.le_last {a : K × K} {l : Table K} (h : Incr (a :: l)) :
    a.1 ≤ (lastRow a l).1 ∧ a.2 ≤ (lastRow a l).2 := by
  rcases List.mem_cons.mp (lastRow_mem a l) with e | e
  · rw [e]; exact ⟨le_refl _, le_refl _⟩
  · have := (List.pairwise_cons.mp h).1 _ e
    exact ⟨this.1.le, this.2⟩

theorem line_left (a b : K × K) : line a b a.1 = a.2 := by simp [line]

theorem line_right {a b : K × K} (h : a.1 < b.1) : line a b b.1 = b.2 := by
  have : b.1 - a.1 ≠ 0 := sub_ne_zero.mpr h.ne'
  simp only [line]
  rw [div_self this]; ring

theorem line_mono {a b : K × K} (h : a.1 < b.1) (h2 : a.2 ≤ b.2) {x y : K} (hxy : x ≤ y) :
    line a b x ≤ line a b y := by
  simp only [line]
  have hp : 0 < b.1 - a.1 := sub_pos.mpr h
  have : (x - a.1) / (b.1 - a.1) ≤ (y - a.1) / (b.1 - a.1) :=
    div_le_div_of_nonneg_right (by linarith) hp.le
  have := mul_le_mul_of_nonneg_right this (sub_nonneg.mpr h2)
  linarith

theorem pl_ge {a : K × K} {l : Table K} (h : Incr (a :: l)) {x : K} (hx : a.1 ≤ x) : a.2 ≤ pl x a l := by
  induction l generalizing a with
  | nil => exact le_refl _
  | cons b l ih =>
    have hb := h.head
    have hl : a.2 ≤ line a b x := by
      have := line_mono hb.1 hb.2 hx
      rwa [line_left] at this
    cases l with
    | nil => exact hl
    | cons c l =>
      simp only [pl]
      split
      · exact hl
      · rename_i hn
        exact le_trans hb.2 (ih h.tail (not_le.mp hn).le)

theorem pl_mono {a : K × K} {l : Table K} (h : Incr (a :: l)) {x y : K} (hxy : x ≤ y) :
    pl x a l ≤ pl y a l := by
  induction l generalizing a with
  | nil => exact le_refl _
  | cons b l ih =>
    have hb := h.head
    cases l with
    | nil => exact line_mono hb.1 hb.2 hxy
    | cons c l =>
      simp only [pl]
      by_cases hy : y ≤ b.1
      · rw [if_pos hy, if_pos (le_trans hxy hy)]
        exact line_mono hb.1 hb.2 hxy
      · rw [if_neg hy]
        by_cases hx : x ≤ b.1
        · rw [if_pos hx]
          have h1 := line_mono hb.1 hb.2 hx
          rw [line_right hb.1] at h1
          exact le_trans h1 (pl_ge h.tail (not_le.mp hy).le)
        · rw [if_neg hx]
          exact ih h.tail

/-- Inside the table, the segment loop computes the piecewise linear function. -/
theorem segments_eq {a b : K × K} {l : Table K} (h : Incr (a :: b :: l)) {x : K} (h1 : a.1 ≤ x)
    (h2 : x ≤ (lastRow b l).1) : segments x (a :: b :: l) = .ok (pl x a (b :: l)) := by
  induction l generalizing a b with
  | nil =>
    simp only [lastRow] at h2
    have hb := h.head
    simp only [segments]
    rw [if_pos ⟨h1, h2⟩, if_neg (sub_ne_zero.mpr hb.1.ne')]
    rfl
  | cons c l ih =>
    have hb := h.head
    rw [segments, pl]
    by_cases hx : x ≤ b.1
    · rw [if_pos ⟨h1, hx⟩, if_neg (sub_ne_zero.mpr hb.1.ne'), if_pos hx]
      rfl
    · rw [if_neg (fun hh => hx hh.2), if_neg hx]
      exact ih h.tail (not_le.mp hx).le h2

/-- Beyond the last row, the extrapolation is the prolonged last segment. -/
theorem extrapolate_eq {a b : K × K} {l : Table K} (h : Incr (a :: b :: l)) {x : K}
    (h2 : (lastRow b l).1 < x) :
    extrapolate x (lastRow b l) (prevRow a (b :: l)) = .ok (pl x a (b :: l)) := by
  induction l generalizing a b with
  | nil =>
    have hb := h.head
    have hne : b.1 - a.1 ≠ 0 := sub_ne_zero.mpr hb.1.ne'
    have e1 : lastRow b ([] : Table K) = b := rfl
    have e2 : prevRow a [b] = some a := rfl
    rw [e1, e2]
    unfold extrapolate
    simp only
    rw [if_neg hne]
    simp only [line, pl, Val.ok.injEq]
    field_simp
    ring
  | cons c l ih =>
    have hl := (h.tail.tail).le_last
    have hbc := h.tail.head
    have : ¬ x ≤ b.1 := by
      simp only [lastRow] at h2
      have := hl.1
      intro hh
      linarith [hbc.1]
    simp only [prevRow, lastRow, pl]
    rw [if_neg this]
    exact ih h.tail h2

/-- The whole look-up on a table of at least two increasing rows. -/
theorem interp_eq {a b : K × K} {l : Table K} (h : Incr (a :: b :: l)) (x : K) :
    interp (a :: b :: l) x = .ok (if x < a.1 then a.2 else pl x a (b :: l)) := by
  have hlast : lastRow a (b :: l) = lastRow b l := rfl
  have hle := h.le_last
  simp only [interp, hlast] at *
  by_cases h1 : (lastRow b l).1 < x
  · rw [if_pos h1, extrapolate_eq h h1, if_neg (by intro hh; linarith [hle.1])]
  · rw [if_neg h1]
    by_cases h2 : x < a.1
    · rw [if_pos h2, if_pos h2]
    · rw [if_neg h2, if_neg h2, segments_eq h (not_lt.mp h2) (not_lt.mp h1)]

/-- At a row of the table the piecewise linear function has the value of the row. -/
theorem pl_at_row {a : K × K} {l : Table K} (h : Incr (a :: l)) {r : K × K} (hr : r ∈ a :: l) :
    pl r.1 a l = r.2 := by
  induction l generalizing a with
  | nil =>
    simp only [List.mem_singleton] at hr
    rw [hr]; rfl
  | cons b l ih =>
    have hb := h.head
    rcases List.mem_cons.mp hr with e | e
    · subst e
      cases l with
      | nil => exact line_left _ _
      | cons c l =>
        simp only [pl]
        rw [if_pos hb.1.le, line_left]
    · cases l with
      | nil =>
        simp only [List.mem_singleton] at e
        subst e
        exact line_right hb.1
      | cons c l =>
        simp only [pl]
        rcases List.mem_cons.mp e with e' | e'
        · subst e'
          rw [if_pos (le_refl _)]
          exact line_right hb.1
        · have : b.1 < r.1 := ((List.pairwise_cons.mp h.tail).1 r e').1
          rw [if_neg (not_le.mpr this)]
          exact ih h.tail e

/-- Between two consecutive rows the piecewise linear function is the line through them. -/
theorem pl_between {a : K × K} {l l1 l2 : Table K} {p q : K × K} (h : Incr (a :: l))
    (e : a :: l = l1 ++ p :: q :: l2) {x : K} (h1 : p.1 ≤ x) (h2 : x ≤ q.1) : pl x a l = line p q x := by
  induction l1 generalizing a l with
  | nil =>
    simp only [List.nil_append, List.cons.injEq] at e
    obtain ⟨rfl, rfl⟩ := e
    cases l2 with
    | nil => rfl
    | cons c l => simp only [pl]; rw [if_pos h2]
  | cons r l1 ih =>
    simp only [List.cons_append, List.cons.injEq] at e
    obtain ⟨rfl, e⟩ := e
    cases l with
    | nil => simp at e
    | cons b l =>
      have hI := ih h.tail e
      cases l with
      | nil =>
        have := congrArg List.length e
        simp only [List.length_cons, List.length_nil, List.length_append] at this
        omega
      | cons c l =>
        simp only [pl]
        by_cases hx : x ≤ b.1
        · -- then `p = b` and `x = b.1`
          have hpb : p = b ∨ b.1 < p.1 := by
            cases l1 with
            | nil => simp only [List.nil_append, List.cons.injEq] at e; exact Or.inl e.1.symm
            | cons s l1 =>
              simp only [List.cons_append, List.cons.injEq] at e
              right
              have hp : p ∈ c :: l := by rw [e.2]; simp
              exact ((List.pairwise_cons.mp h.tail).1 p hp).1
          rw [if_pos hx]
          rcases hpb with rfl | hlt
          · have hxe : x = p.1 := le_antisymm hx h1
            rw [hxe, line_right h.head.1, line_left]
          · exact absurd (lt_of_lt_of_le hlt h1) (not_lt.mpr hx)
        · rw [if_neg hx]
          exact hI

/-- Linear check that the rows increase. -/
def incrB : Table K → Bool
  | a :: b :: l => decide (a.1 < b.1) && decide (a.2 ≤ b.2) && incrB (b :: l)
  | _ => true

theorem incr_of_incrB {t : Table K} (h : incrB t = true) : Incr t := by
  induction t with
  | nil => exact List.Pairwise.nil
  | cons a t ih =>
    cases t with
    | nil => exact List.pairwise_singleton _ _
    | cons b l =>
      simp only [incrB, Bool.and_eq_true, decide_eq_true_eq] at h
      have hI := ih h.2
      refine List.pairwise_cons.mpr ⟨?_, hI⟩
      intro r hr
      rcases List.mem_cons.mp hr with e | e
      · rw [e]; exact h.1
      · have := (List.pairwise_cons.mp hI).1 r e
        exact ⟨lt_trans h.1.1 this.1, le_trans h.1.2 this.2⟩

/-! ## Coordinator -/

theorem fold_ge {req : Standard → Option K} {l : List Standard} {acc v : K}
    (h : foldStandards req l acc = some v) :
    acc ≤ v ∧ (∀ s ∈ l, ∃ r, req s = some r ∧ r ≤ v) ∧ (v = acc ∨ ∃ s ∈ l, req s = some v) := by
  induction l generalizing acc with
  | nil =>
    simp only [foldStandards, Option.some.injEq] at h
    subst h
    simp
  | cons s l ih =>
    simp only [foldStandards] at h
    cases hs : req s with
    | none => simp [hs] at h
    | some r =>
      simp only [hs] at h
      obtain ⟨h1, h2, h3⟩ := ih h
      refine ⟨le_trans (le_max_left _ _) h1, ?_, ?_⟩
      · intro s' hs'
        rcases List.mem_cons.mp hs' with rfl | e
        · exact ⟨r, hs, le_trans (le_max_right _ _) h1⟩
        · exact h2 s' e
      · rcases h3 with rfl | ⟨s', hm, he⟩
        · rcases max_choice acc r with e | e
          · left; rw [e]
          · right; exact ⟨s, by simp, by rw [hs, e]⟩
        · right; exact ⟨s', by simp [hm], he⟩

theorem fold_some_iff {req : Standard → Option K} {l : List Standard} {acc : K} :
    (∃ v, foldStandards req l acc = some v) ↔ ∀ s ∈ l, ∃ r, req s = some r := by
  induction l generalizing acc with
  | nil => simp [foldStandards]
  | cons s l ih =>
    simp only [foldStandards]
    cases hs : req s with
    | none =>
      simp only [reduceCtorEq, exists_false, false_iff, not_forall]
      exact ⟨s, by simp, by simp [hs]⟩
    | some r =>
      simp only [ih]
      constructor
      · intro h s' hm
        rcases List.mem_cons.mp hm with rfl | e
        · exact ⟨r, hs⟩
        · exact h s' e
      · intro h s' hm
        exact h s' (List.mem_cons_of_mem _ hm)

/-! ## Search -/

theorem fieldValid_iff {d v : K} (hd : 0 < d) :
    fieldValid d v = true ↔
      v < (if d < 30 / 10 ^ 6 then 10 * 10 ^ 6 * d
           else if d > 75 / 10 ^ 5 then 2 * 10 ^ 6 * d
           else 250 + 1667 * 1000 * d) := by
  unfold fieldValid
  rw [if_neg hd.ne']
  split
  · simp only [decide_eq_true_eq, div_lt_iff₀ hd]
  · split
    · simp only [decide_eq_true_eq, div_lt_iff₀ hd]
    · simp only [decide_eq_true_eq, div_lt_iff₀ hd]
      have : (1 / 4 / (d * 1000) + 1667 / 1000) * 10 ^ 6 * d = 250 + 1667 * 1000 * d := by
        field_simp
        ring
      rw [this]

theorem microns_pos {n : Nat} (h : 0 < n) : (0 : K) < microns n := by
  unfold microns
  have : (0 : K) < n := by exact_mod_cast h
  positivity

theorem fieldValid_zero (v : K) : fieldValid (microns 0 : K) v = false := by
  simp [fieldValid, microns]

/-- The voltage admitted at a whole number of micrometres. -/
def admitted (n : Nat) : K :=
  if n < 30 then 10 * n else if n > 750 then 2 * n else 250 + 1667 * n / 1000

theorem fieldValid_microns {n : Nat} (hn : 0 < n) (v : K) :
    fieldValid (microns n : K) v = true ↔ v < admitted n := by
  rw [fieldValid_iff (microns_pos hn)]
  have h1 : ((microns n : K) < 30 / 10 ^ 6) ↔ n < 30 := by
    unfold microns
    rw [div_lt_div_iff_of_pos_right (by positivity)]
    constructor
    · intro h; exact_mod_cast h
    · intro h; exact_mod_cast h
  have h2 : ((microns n : K) > 75 / 10 ^ 5) ↔ n > 750 := by
    unfold microns
    have : (75 / 10 ^ 5 : K) = 750 / 10 ^ 6 := by norm_num
    rw [this, gt_iff_lt, div_lt_div_iff_of_pos_right (by positivity)]
    constructor
    · intro h; exact_mod_cast h
    · intro h; exact_mod_cast h
  unfold admitted
  by_cases c1 : n < 30
  · rw [if_pos (h1.mpr c1), if_pos c1]
    have : (10 * 10 ^ 6 * microns n : K) = 10 * n := by unfold microns; ring
    rw [this]
  · rw [if_neg (fun h => c1 (h1.mp h)), if_neg c1]
    by_cases c2 : n > 750
    · rw [if_pos (h2.mpr c2), if_pos c2]
      have : (2 * 10 ^ 6 * microns n : K) = 2 * n := by unfold microns; ring
      rw [this]
    · rw [if_neg (fun h => c2 (h2.mp h)), if_neg c2]
      have : (250 + 1667 * 1000 * microns n : K) = 250 + 1667 * n / 1000 := by unfold microns; ring
      rw [this]

theorem admitted_mono_step (n : Nat) : (admitted n : K) ≤ admitted (n + 1) := by
  unfold admitted
  have hn : (0 : K) ≤ n := by positivity
  push_cast
  by_cases c1 : n + 1 < 30
  · rw [if_pos (by omega), if_pos c1]; linarith
  · rw [if_neg c1]
    by_cases c2 : n < 30
    · have : n = 29 := by omega
      subst this
      norm_num
    · rw [if_neg c2]
      by_cases c3 : n + 1 > 750
      · rw [if_pos c3]
        by_cases c4 : n > 750
        · rw [if_pos c4]; linarith
        · have : n = 750 := by omega
          subst this
          norm_num
      · rw [if_neg c3, if_neg (by omega)]; linarith

theorem admitted_mono {m n : Nat} (h : m ≤ n) : (admitted m : K) ≤ admitted n := by
  induction n, h using Nat.le_induction with
  | base => exact le_refl _
  | succ n _ ih => exact le_trans ih (admitted_mono_step n)

/-- Invariant of the search loop. -/
theorem search_spec (v : K) (k fuel : Nat) (d : K) (h : search (some v) k fuel = some d) :
    ∃ n, k ≤ n ∧ d = microns n ∧ fieldValid (microns n : K) v = true ∧
      ∀ m, k ≤ m → m < n → fieldValid (microns m : K) v = false := by
  induction fuel generalizing k with
  | zero => simp [search] at h
  | succ fuel ih =>
    simp only [search] at h
    split at h
    · rename_i hv
      simp only [Option.some.injEq] at h
      exact ⟨k, le_refl _, h.symm, hv, fun m h1 h2 => absurd h1 (by omega)⟩
    · rename_i hv
      obtain ⟨n, h1, h2, h3, h4⟩ := ih (k + 1) h
      refine ⟨n, by omega, h2, h3, ?_⟩
      intro m hm1 hm2
      by_cases e : m = k
      · subst e; simpa using hv
      · exact h4 m (by omega) hm2

theorem search_terminates (v : K) (k n : Nat) (hkn : k ≤ n) (hv : fieldValid (microns n : K) v = true) :
    ∃ fuel d, search (some v) k fuel = some d := by
  obtain ⟨j, rfl⟩ := Nat.exists_eq_add_of_le hkn
  induction j generalizing k with
  | zero =>
    refine ⟨1, microns k, ?_⟩
    simp only [search]
    rw [if_pos (by simpa using hv)]
  | succ j ih =>
    by_cases hk : fieldValid (microns k : K) v = true
    · refine ⟨1, microns k, ?_⟩
      simp only [search]
      rw [if_pos hk]
    · obtain ⟨fuel, d, h⟩ := ih (k + 1) (by omega) (by
        have : k + 1 + j = k + (j + 1) := by omega
        rw [this]; exact hv)
      refine ⟨fuel + 1, d, ?_⟩
      simp only [search]
      rw [if_neg hk]
      exact h

theorem search_nan (k fuel : Nat) : search (none : Option K) k fuel = none := by
  induction fuel generalizing k with
  | zero => rfl
  | succ fuel ih => simp [search, ih]

end Verif.Insulation
