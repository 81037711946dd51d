import Verif.Insulation.Lemmas
import Verif.Common.Round

/-! # C23, C24, C25: insulation tables, coordinator, thickness search -/

set_option linter.unusedSectionVars false
set_option linter.unusedSimpArgs false

namespace Verif.Insulation

variable {K : Type} [Field K] [LinearOrder K] [IsStrictOrderedRing K]

/-! ## Specification -/

/-- The rows of a table increase: strictly in the first column, weakly in the second. -/
def Increasing (t : Table K) : Prop := t.Pairwise (fun a b => a.1 < b.1 ∧ a.2 ≤ b.2)

/-- The point `(x, y)` lies on the straight line through two rows. -/
def OnLine (p q : K × K) (x y : K) : Prop := (y - p.2) * (q.1 - p.1) = (x - p.1) * (q.2 - p.2)

/-- The greatest admissible field strength (V/m) for an insulation of thickness `d` (m), as printed in the
standards: 10 kV/mm below 30 µm, 2 kV/mm above 0.75 mm, `0.25/d + 1.667` kV/mm (`d` in mm) between. -/
def fieldLimit (d : K) : K :=
  if d < 30 / 10 ^ 6 then 10 * 10 ^ 6
  else if d ≤ 75 / 10 ^ 5 then (1 / 4 / (d * 1000) + 1667 / 1000) * 10 ^ 6
  else 2 * 10 ^ 6

/-- A thickness is safe for a voltage: it is positive and the field stays below the limit. -/
def Safe (d v : K) : Prop := 0 < d ∧ v / d < fieldLimit d

/-! ## C23 -/

theorem two_rows {t : Table K} (h : 2 ≤ t.length) : ∃ a b l, t = a :: b :: l := by
  match t, h with
  | a :: b :: l, _ => exact ⟨a, b, l, rfl⟩

/-- C23: on a table of at least two increasing rows the look-up always gives a number. -/
theorem interp_total {t : Table K} (hi : Increasing t) (h2 : 2 ≤ t.length) (x : K) :
    ∃ v, interp t x = .ok v := by
  obtain ⟨a, b, l, rfl⟩ := two_rows h2
  exact ⟨_, interp_eq hi x⟩

/-- C23: at a row it gives the value of the row. -/
theorem interp_at_row {t : Table K} (hi : Increasing t) (h2 : 2 ≤ t.length) {r : K × K} (hr : r ∈ t) :
    interp t r.1 = .ok r.2 := by
  obtain ⟨a, b, l, rfl⟩ := two_rows h2
  rw [interp_eq hi]
  have : ¬ r.1 < a.1 := by
    rcases List.mem_cons.mp hr with rfl | e
    · exact lt_irrefl _
    · exact not_lt.mpr ((List.pairwise_cons.mp hi).1 r e).1.le
  rw [if_neg this, pl_at_row hi hr]

/-- C23: between two neighbouring rows it gives the point of the straight line through them, which lies
between the values of the two rows. -/
theorem interp_between {t l1 l2 : Table K} {p q : K × K} (hi : Increasing t)
    (ht : t = l1 ++ p :: q :: l2) {x : K} (h1 : p.1 ≤ x) (h2 : x ≤ q.1) :
    ∃ v, interp t x = .ok v ∧ OnLine p q x v ∧ p.2 ≤ v ∧ v ≤ q.2 := by
  have hlen : 2 ≤ t.length := by rw [ht, List.length_append, List.length_cons, List.length_cons]; omega
  obtain ⟨a, b, l, e⟩ := two_rows hlen
  have hi' : Incr (a :: b :: l) := by rw [← e]; exact hi
  have hpq : p.1 < q.1 ∧ p.2 ≤ q.2 := by
    have : (p :: q :: l2).Pairwise (fun a b : K × K => a.1 < b.1 ∧ a.2 ≤ b.2) := by
      rw [ht] at hi
      exact (List.pairwise_append.mp hi).2.1
    exact (List.pairwise_cons.mp this).1 q (by simp)
  have hge : ¬ x < a.1 := by
    have hp : p ∈ a :: b :: l := by rw [← e, ht]; simp
    rcases List.mem_cons.mp hp with rfl | hm
    · exact not_lt.mpr h1
    · exact not_lt.mpr (le_trans ((List.pairwise_cons.mp hi').1 p hm).1.le h1)
  refine ⟨line p q x, ?_, ?_, ?_, ?_⟩
  · rw [e, interp_eq hi', if_neg hge, pl_between hi' (e ▸ ht) h1 h2]
  · have hne : q.1 - p.1 ≠ 0 := sub_ne_zero.mpr hpq.1.ne'
    unfold OnLine line
    field_simp
    ring
  · have := line_mono hpq.1 hpq.2 h1
    rwa [line_left] at this
  · have := line_mono hpq.1 hpq.2 h2
    rwa [line_right hpq.1] at this

/-- C23: below the first row the value of the first row applies. -/
theorem interp_below {a : K × K} {l : Table K} (hi : Increasing (a :: l)) {x : K} (h : x < a.1) :
    interp (a :: l) x = .ok a.2 := by
  have := (Incr.le_last hi).1
  simp only [interp]
  rw [if_neg (by intro hh; linarith), if_pos h]

/-- C23: beyond the last row the last segment is prolonged. -/
theorem interp_beyond {t l1 : Table K} {p q : K × K} (hi : Increasing t) (ht : t = l1 ++ [p, q]) {x : K}
    (h : q.1 ≤ x) : ∃ v, interp t x = .ok v ∧ OnLine p q x v ∧ q.2 ≤ v := by
  have hpq : p.1 < q.1 ∧ p.2 ≤ q.2 := by
    have : ([p, q]).Pairwise (fun a b : K × K => a.1 < b.1 ∧ a.2 ≤ b.2) := by
      rw [ht] at hi
      exact (List.pairwise_append.mp hi).2.1
    exact (List.pairwise_cons.mp this).1 q (by simp)
  have key : ∀ (l1 : Table K) (a b : K × K) (l : Table K), Incr (a :: b :: l) → a :: b :: l = l1 ++ [p, q] →
      pl x a (b :: l) = line p q x := by
    intro l1
    induction l1 with
    | nil =>
      intro a b l _ e
      simp only [List.nil_append, List.cons.injEq] at e
      obtain ⟨rfl, rfl, rfl⟩ := e
      rfl
    | cons r l1 ih =>
      intro a b l hI e
      simp only [List.cons_append, List.cons.injEq] at e
      obtain ⟨rfl, e⟩ := e
      cases l with
      | nil =>
        have := congrArg List.length e
        simp at this
      | cons c l =>
        have hq : q ∈ c :: l := by
          have hq' : q ∈ b :: c :: l := by rw [e]; simp
          rcases List.mem_cons.mp hq' with rfl | h'
          · exfalso
            have hlast : ∀ (l1 : Table K) (b' : K × K) (m : Table K), b' :: m = l1 ++ [p, q] →
                m.Pairwise (fun a b : K × K => a.1 < b.1 ∧ a.2 ≤ b.2) → m ≠ [] → q ∈ m := by
              intro l1 b' m e _ _
              cases l1 with
              | nil => simp only [List.nil_append, List.cons.injEq] at e; rw [e.2]; simp
              | cons s l1 => simp only [List.cons_append, List.cons.injEq] at e; rw [e.2]; simp
            have := hlast l1 q (c :: l) e hI.tail.tail (by simp)
            exact lt_irrefl _ ((List.pairwise_cons.mp hI.tail).1 q this).1
          · exact h'
        have : b.1 < q.1 := ((List.pairwise_cons.mp hI.tail).1 q hq).1
        simp only [pl]
        rw [if_neg (by intro hh; linarith)]
        exact ih b c l hI.tail e
  have hlen : 2 ≤ t.length := by rw [ht]; simp
  obtain ⟨a, b, l, e⟩ := two_rows hlen
  have hi' : Incr (a :: b :: l) := by rw [← e]; exact hi
  have hge : ¬ x < a.1 := by
    have hp : q ∈ a :: b :: l := by rw [← e, ht]; simp
    rcases List.mem_cons.mp hp with rfl | hm
    · exact not_lt.mpr h
    · exact not_lt.mpr (le_trans ((List.pairwise_cons.mp hi').1 q hm).1.le h)
  refine ⟨line p q x, ?_, ?_, ?_⟩
  · rw [e, interp_eq hi', if_neg hge, key l1 a b l hi' (e ▸ ht)]
  · have hne : q.1 - p.1 ≠ 0 := sub_ne_zero.mpr hpq.1.ne'
    unfold OnLine line
    field_simp
    ring
  · have := line_mono hpq.1 hpq.2 h
    rwa [line_right hpq.1] at this

/-- C23: a larger argument never gives a smaller value, inside the table, below it and beyond it, and no
argument gives less than the first row. -/
theorem interp_mono {t : Table K} (hi : Increasing t) (h2 : 2 ≤ t.length) {x y v w : K} (hxy : x ≤ y)
    (hv : interp t x = .ok v) (hw : interp t y = .ok w) : v ≤ w := by
  obtain ⟨a, b, l, rfl⟩ := two_rows h2
  rw [interp_eq hi] at hv hw
  simp only [Val.ok.injEq] at hv hw
  subst hv; subst hw
  by_cases h1 : x < a.1
  · rw [if_pos h1]
    split
    · exact le_refl _
    · rename_i h; exact pl_ge hi (not_lt.mp h)
  · rw [if_neg h1, if_neg (by intro hh; linarith)]
    exact pl_mono hi hxy

/-- C23: no argument gives less than the first row. -/
theorem interp_ge_first {a : K × K} {l : Table K} (hi : Increasing (a :: l)) {x v : K}
    (hv : interp (a :: l) x = .ok v) : a.2 ≤ v := by
  cases l with
  | nil =>
    have e : interp [a] x = if a.1 < x then .ok a.2 else if x < a.1 then .ok a.2 else .dblMax := rfl
    rw [e] at hv
    split at hv
    · simp only [Val.ok.injEq] at hv; exact hv.le
    · split at hv
      · simp only [Val.ok.injEq] at hv; exact hv.le
      · simp at hv
  | cons b l =>
    rw [interp_eq hi] at hv
    simp only [Val.ok.injEq] at hv
    subst hv
    split
    · exact le_refl _
    · rename_i h; exact pl_ge hi (not_lt.mp h)

/-- The value a step table gives: that of the first row that reaches the argument. -/
def FirstRow (reaches : K → Prop) (t : Table K) (v : K) : Prop :=
  ∃ before r after, t = before ++ r :: after ∧ (∀ q ∈ before, ¬ reaches q.1) ∧ reaches r.1 ∧ v = r.2

/-- C23 (step tables): a look-up with `<=` answers with the first row that is at least the argument, and throws
exactly when no row is. -/
theorem lookupLe_spec (t : Table K) (x : K) :
    (∀ v, lookupLe t x = some v ↔ FirstRow (x ≤ ·) t v) ∧ (lookupLe t x = none ↔ ∀ r ∈ t, r.1 < x) := by
  induction t with
  | nil =>
    refine ⟨fun v => ⟨by simp [lookupLe], ?_⟩, by simp [lookupLe]⟩
    rintro ⟨b, r, a, h, -⟩
    simp at h
  | cons a l ih =>
    by_cases hc : x ≤ a.1
    · simp only [lookupLe, if_pos hc]
      refine ⟨fun v => ⟨fun h => ⟨[], a, l, rfl, by simp, hc, by simpa using h.symm⟩, ?_⟩, by simp [not_lt.mpr hc]⟩
      rintro ⟨b, r, af, h, hb, hr, rfl⟩
      cases b with
      | nil => simp only [List.nil_append, List.cons.injEq] at h; rw [h.1]
      | cons q b =>
        simp only [List.cons_append, List.cons.injEq] at h
        exact absurd (h.1 ▸ hc) (hb q List.mem_cons_self)
    · simp only [lookupLe, if_neg hc]
      refine ⟨fun v => (ih.1 v).trans ⟨?_, ?_⟩, ?_⟩
      · rintro ⟨b, r, af, rfl, hb, hr, rfl⟩
        refine ⟨a :: b, r, af, rfl, ?_, hr, rfl⟩
        intro q hq
        rcases List.mem_cons.mp hq with rfl | h
        · exact hc
        · exact hb q h
      · rintro ⟨b, r, af, h, hb, hr, rfl⟩
        cases b with
        | nil => simp only [List.nil_append, List.cons.injEq] at h; exact absurd (h.1 ▸ hr) hc
        | cons q b =>
          simp only [List.cons_append, List.cons.injEq] at h
          exact ⟨b, r, af, h.2, fun y hy => hb y (List.mem_cons_of_mem _ hy), hr, rfl⟩
      · rw [ih.2]
        simp [not_le.mp hc]

/-- C23 (step tables): the same for the look-ups with `<`. -/
theorem lookupLt_spec (t : Table K) (x : K) :
    (∀ v, lookupLt t x = some v ↔ FirstRow (x < ·) t v) ∧ (lookupLt t x = none ↔ ∀ r ∈ t, r.1 ≤ x) := by
  induction t with
  | nil =>
    refine ⟨fun v => ⟨by simp [lookupLt], ?_⟩, by simp [lookupLt]⟩
    rintro ⟨b, r, a, h, -⟩
    simp at h
  | cons a l ih =>
    by_cases hc : x < a.1
    · simp only [lookupLt, if_pos hc]
      refine ⟨fun v => ⟨fun h => ⟨[], a, l, rfl, by simp, hc, by simpa using h.symm⟩, ?_⟩, by simp [not_le.mpr hc]⟩
      rintro ⟨b, r, af, h, hb, hr, rfl⟩
      cases b with
      | nil => simp only [List.nil_append, List.cons.injEq] at h; rw [h.1]
      | cons q b =>
        simp only [List.cons_append, List.cons.injEq] at h
        exact absurd (h.1 ▸ hc) (hb q List.mem_cons_self)
    · simp only [lookupLt, if_neg hc]
      refine ⟨fun v => (ih.1 v).trans ⟨?_, ?_⟩, ?_⟩
      · rintro ⟨b, r, af, rfl, hb, hr, rfl⟩
        refine ⟨a :: b, r, af, rfl, ?_, hr, rfl⟩
        intro q hq
        rcases List.mem_cons.mp hq with rfl | h
        · exact hc
        · exact hb q h
      · rintro ⟨b, r, af, h, hb, hr, rfl⟩
        cases b with
        | nil => simp only [List.nil_append, List.cons.injEq] at h; exact absurd (h.1 ▸ hr) hc
        | cons q b =>
          simp only [List.cons_append, List.cons.injEq] at h
          exact ⟨b, r, af, h.2, fun y hy => hb y (List.mem_cons_of_mem _ hy), hr, rfl⟩
      · rw [ih.2]
        simp [not_lt.mp hc]

/-- C23 (step tables): a larger argument never gives a smaller value. -/
theorem lookupLe_mono {t : Table K} (hi : Increasing t) {x y v w : K} (hxy : x ≤ y)
    (hv : lookupLe t x = some v) (hw : lookupLe t y = some w) : v ≤ w := by
  induction t with
  | nil => simp [lookupLe] at hv
  | cons a l ih =>
    simp only [lookupLe] at hv hw
    have hp := List.pairwise_cons.mp hi
    by_cases h1 : x ≤ a.1
    · rw [if_pos h1] at hv
      simp only [Option.some.injEq] at hv
      subst hv
      by_cases h2 : y ≤ a.1
      · rw [if_pos h2] at hw
        simp only [Option.some.injEq] at hw
        exact hw.le
      · rw [if_neg h2] at hw
        obtain ⟨b, r, af, e, -, -, rfl⟩ := ((lookupLe_spec l y).1 w).mp hw
        exact (hp.1 r (by rw [e]; simp)).2
    · rw [if_neg h1] at hv
      rw [if_neg (by intro h; exact h1 (le_trans hxy h))] at hw
      exact ih hp.2 hv hw

/-- C23 (step tables): the same for the look-ups with `<`, which never give less than those with `<=`. -/
theorem lookupLt_mono {t : Table K} (hi : Increasing t) {x y v w : K} (hxy : x ≤ y)
    (hv : lookupLt t x = some v) (hw : lookupLt t y = some w) : v ≤ w := by
  induction t with
  | nil => simp [lookupLt] at hv
  | cons a l ih =>
    simp only [lookupLt] at hv hw
    have hp := List.pairwise_cons.mp hi
    by_cases h1 : x < a.1
    · rw [if_pos h1] at hv
      simp only [Option.some.injEq] at hv
      subst hv
      by_cases h2 : y < a.1
      · rw [if_pos h2] at hw
        simp only [Option.some.injEq] at hw
        exact hw.le
      · rw [if_neg h2] at hw
        obtain ⟨b, r, af, e, -, -, rfl⟩ := ((lookupLt_spec l y).1 w).mp hw
        exact (hp.1 r (by rw [e]; simp)).2
    · rw [if_neg h1] at hv
      rw [if_neg (by intro h; exact h1 (lt_of_le_of_lt hxy h))] at hw
      exact ih hp.2 hv hw

example : lookupLe ([(50, 1), (100, 2), (300, 5)] : Table ℚ) 100 = some 2 ∧
    lookupLt ([(50, 1), (100, 2), (300, 5)] : Table ℚ) 100 = some 5 ∧
    lookupLt ([(50, 1), (100, 2), (300, 5)] : Table ℚ) 300 = none := by decide +kernel

/-- C23, what fails: on a table with a single row the look-up at that row finds no segment and answers
`DBL_MAX` although the row is there; an empty table is undefined behaviour. -/
theorem interp_single_row (a : K × K) : interp [a] a.1 = .dblMax ∧ interp ([] : Table K) a.1 = .ub := by
  simp [interp, lastRow, segments]

/-- Table F.1 (overvoltage category I) meets the hypotheses; 75 V lies between its first two rows. -/
example : Increasing ([(50, 330), (100, 500), (150, 800)] : Table ℚ) ∧
    interp ([(50, 330), (100, 500), (150, 800)] : Table ℚ) 75 = .ok 415 ∧
    interp ([(50, 330), (100, 500), (150, 800)] : Table ℚ) 200 = .ok 1100 := by
  refine ⟨incr_of_incrB (by decide +kernel), by decide +kernel, by decide +kernel⟩

/-! ## C24 -/

/-- C24: what the coordinator reports is at least what each selected standard requires, it is never negative,
and it is either 0 or what one of the selected standards requires. -/
theorem coordinate_most_demanding {req : Standard → Option K} {l : List Standard} {v : K}
    (h : coordinate req (some l) = some v) :
    0 ≤ v ∧ (∀ s ∈ l, ∃ r, req s = some r ∧ r ≤ v) ∧ (v = 0 ∨ ∃ s ∈ l, req s = some v) :=
  fold_ge h

/-- C24: it fails exactly when one of the selected standards fails; without insulation requirements it
reports 0. -/
theorem coordinate_total {req : Standard → Option K} {l : List Standard} :
    ((∃ v, coordinate req (some l) = some v) ↔ ∀ s ∈ l, ∃ r, req s = some r) ∧
      coordinate req none = some 0 :=
  ⟨fold_some_iff, rfl⟩

/-- C24: adding standards never lowers the requirement. -/
theorem coordinate_mono {req : Standard → Option K} {l l' : List Standard} (hsub : ∀ s ∈ l, s ∈ l') {v v' : K}
    (h : coordinate req (some l) = some v) (h' : coordinate req (some l') = some v') : v ≤ v' := by
  obtain ⟨_, _, h3⟩ := fold_ge h
  obtain ⟨h1', h2', _⟩ := fold_ge h'
  rcases h3 with rfl | ⟨s, hs, he⟩
  · exact h1'
  · obtain ⟨r, hr, hle⟩ := h2' s (hsub s hs)
    rw [he] at hr
    simp only [Option.some.injEq] at hr
    rw [hr]; exact hle

/-- C24: order and repetition of the standards do not matter. -/
theorem coordinate_set {req : Standard → Option K} {l l' : List Standard} (hset : ∀ s, s ∈ l ↔ s ∈ l') :
    coordinate req (some l) = coordinate req (some l') := by
  cases h : coordinate req (some l) with
  | none =>
    cases h' : coordinate req (some l') with
    | none => rfl
    | some v' =>
      exfalso
      have := (coordinate_total (req := req) (l := l')).1.mp ⟨v', h'⟩
      have h2 := (coordinate_total (req := req) (l := l)).1.mpr (fun s hs => this s ((hset s).mp hs))
      obtain ⟨v, hv⟩ := h2
      rw [h] at hv; cases hv
  | some v =>
    cases h' : coordinate req (some l') with
    | none =>
      exfalso
      have := (coordinate_total (req := req) (l := l)).1.mp ⟨v, h⟩
      obtain ⟨v', hv'⟩ := (coordinate_total (req := req) (l := l')).1.mpr
        (fun s hs => this s ((hset s).mpr hs))
      rw [h'] at hv'; cases hv'
    | some v' =>
      rw [Option.some.injEq]
      exact le_antisymm (coordinate_mono (fun s hs => (hset s).mp hs) h h')
        (coordinate_mono (fun s hs => (hset s).mpr hs) h' h)

/-- C24: a more demanding answer of the standards never lowers the coordinated value. -/
theorem coordinate_mono_req {req req' : Standard → Option K} {l : List Standard} {v v' : K}
    (hreq : ∀ s ∈ l, ∀ r r', req s = some r → req' s = some r' → r ≤ r')
    (h : coordinate req (some l) = some v) (h' : coordinate req' (some l) = some v') : v ≤ v' := by
  obtain ⟨_, _, h3⟩ := fold_ge h
  obtain ⟨h1', h2', _⟩ := fold_ge h'
  rcases h3 with rfl | ⟨s, hs, he⟩
  · exact h1'
  · obtain ⟨r, hr, hle⟩ := h2' s hs
    exact le_trans (hreq s hs _ _ he hr) hle

/-- Fully insulated wire is excluded exactly when IEC 60335-1 or IEC 60664-1 is among the standards. -/
theorem canFullyInsulated_iff (l : List Standard) :
    canFullyInsulated l = true ↔ Standard.iec60335 ∉ l ∧ Standard.iec60664 ∉ l := by
  induction l with
  | nil => simp [canFullyInsulated]
  | cons s l ih =>
    simp only [canFullyInsulated]
    split
    · rename_i h
      rcases h with rfl | rfl <;> simp
    · rename_i h
      rw [ih]
      constructor
      · rintro ⟨h1, h2⟩
        constructor
        · intro hm; rcases List.mem_cons.mp hm with e | e
          · exact h (Or.inl e.symm)
          · exact h1 e
        · intro hm; rcases List.mem_cons.mp hm with e | e
          · exact h (Or.inr e.symm)
          · exact h2 e
      · rintro ⟨h1, h2⟩
        exact ⟨fun hm => h1 (List.mem_cons_of_mem _ hm), fun hm => h2 (List.mem_cons_of_mem _ hm)⟩

example : coordinate (fun s => if s = .iec61558 then some (3 : ℚ) else some 2)
    (some [.iec60664, .iec61558, .iec60664]) = some 3 := by decide +kernel

/-! ## C25 -/

theorem safe_iff {d v : K} (hd : 0 < d) : Safe d v ↔ fieldValid d v = true := by
  unfold Safe fieldLimit fieldValid
  rw [if_neg hd.ne']
  by_cases h1 : d < 30 / 10 ^ 6
  · rw [if_pos h1, if_pos h1]; simp [hd]
  · rw [if_neg h1, if_neg h1]
    by_cases h2 : d > 75 / 10 ^ 5
    · rw [if_neg (not_le.mpr h2), if_pos h2]; simp [hd]
    · rw [if_pos (not_lt.mp h2), if_neg h2]; simp [hd]

/-- C25: for every working voltage the search terminates. -/
theorem search_total [Archimedean K] (v : K) : ∃ d, SearchReturns (some v) d := by
  obtain ⟨n, hn⟩ := exists_nat_gt v
  have hpos : 0 < max n 751 := by omega
  have hv : fieldValid (microns (max n 751) : K) v = true := by
    rw [fieldValid_microns hpos]
    unfold admitted
    rw [if_neg (by omega), if_pos (by omega)]
    have h1 : (n : K) ≤ ((max n 751 : ℕ) : K) := by exact_mod_cast le_max_left _ _
    have h0 : (0 : K) ≤ ((max n 751 : ℕ) : K) := by positivity
    linarith
  obtain ⟨fuel, d, h⟩ := search_terminates v 0 (max n 751) (by omega) hv
  exact ⟨d, fuel, h⟩

/-- C25: the result is safe, it is a whole number of micrometres, and no smaller whole number of micrometres
is safe. -/
theorem search_smallest_safe {v d : K} (h : SearchReturns (some v) d) :
    Safe d v ∧ ∃ n : Nat, d = (n : K) / 10 ^ 6 ∧ ∀ m : Nat, m < n → ¬ Safe ((m : K) / 10 ^ 6) v := by
  obtain ⟨fuel, h⟩ := h
  obtain ⟨n, _, rfl, hv, hmin⟩ := search_spec v 0 fuel d h
  have hn : 0 < n := by
    rcases Nat.eq_zero_or_pos n with rfl | h
    · rw [fieldValid_zero] at hv; cases hv
    · exact h
  refine ⟨(safe_iff (microns_pos hn)).mpr hv, n, rfl, ?_⟩
  intro m hm hs
  rcases Nat.eq_zero_or_pos m with rfl | h0
  · have := hs.1; simp at this
  · have := (safe_iff (microns_pos h0)).mp hs
    rw [hmin m (by omega) hm] at this
    cases this

/-- C25: the result is determined by the voltage, and a larger voltage never gives a smaller thickness. -/
theorem search_mono {v w d e : K} (hvw : v ≤ w) (hd : SearchReturns (some v) d)
    (he : SearchReturns (some w) e) : d ≤ e := by
  obtain ⟨_, n, rfl, hn⟩ := search_smallest_safe hd
  obtain ⟨hs, m, rfl, _⟩ := search_smallest_safe he
  have hm : Safe ((m : K) / 10 ^ 6) v :=
    ⟨hs.1, lt_of_le_of_lt (div_le_div_of_nonneg_right hvw hs.1.le) hs.2⟩
  have : n ≤ m := by
    by_contra hlt
    exact hn m (not_le.mp hlt) hm
  exact div_le_div_of_nonneg_right (by exact_mod_cast this) (by positivity)

/-- C25: once a whole number of micrometres is safe, every larger whole number of micrometres is safe as
well. (Not so for arbitrary thicknesses: the printed limit drops from 2.0003 to 2 kV/mm at 0.75 mm.) -/
theorem safe_mono_microns {m n : Nat} (hmn : m ≤ n) {v : K} (h : Safe ((m : K) / 10 ^ 6) v) :
    Safe ((n : K) / 10 ^ 6) v := by
  have hm : 0 < m := by
    rcases Nat.eq_zero_or_pos m with rfl | h0
    · have := h.1; simp at this
    · exact h0
  have h1 := (fieldValid_microns hm v).mp ((safe_iff (microns_pos hm)).mp h)
  exact (safe_iff (microns_pos (by omega))).mpr
    ((fieldValid_microns (by omega) v).mpr (lt_of_lt_of_le h1 (admitted_mono hmn)))

/-- C25: the reported distance, rounded up to hundredths of a millimetre, is still safe. -/
theorem reported_thickness_safe [FloorRing K] {v d : K} (h : SearchReturns (some v) d) :
    Safe (Verif.Round.ceilFloat d 5) v ∧ d ≤ Verif.Round.ceilFloat d 5 := by
  obtain ⟨hs, n, rfl, _⟩ := search_smallest_safe h
  have hge := (Verif.Round.ceilFloat_ge ((n : K) / 10 ^ 6) 5).1
  refine ⟨?_, hge⟩
  have hx : (n : K) / 10 ^ 6 * 10 ^ 5 = (n : K) / 10 := by ring
  have h0 : (0 : ℤ) ≤ ⌈(n : K) / 10⌉ := Int.ceil_nonneg (by positivity)
  obtain ⟨k, hk⟩ := Int.eq_ofNat_of_zero_le h0
  have hc : Verif.Round.ceilFloat ((n : K) / 10 ^ 6) 5 = ((10 * k : ℕ) : K) / 10 ^ 6 := by
    unfold Verif.Round.ceilFloat
    rw [hx, hk]
    push_cast
    ring
  rw [hc] at hge ⊢
  have : n ≤ 10 * k := by
    have := (div_le_div_iff_of_pos_right (c := (10 : K) ^ 6) (by positivity)).mp hge
    exact_mod_cast this
  exact safe_mono_microns this hs

/-- C25, what fails: for a NaN working voltage the loop never ends. -/
theorem search_nan_never_returns (d : K) : ¬ SearchReturns (none : Option K) d := by
  rintro ⟨fuel, h⟩
  rw [search_nan] at h
  cases h

/-- The printed limit is not monotone in the thickness around 0.75 mm: 1500.1 V is admitted at 0.75 mm but not
at 0.75002 mm. -/
example : Safe (75 / 10 ^ 5 : ℚ) (15001 / 10) ∧ ¬ Safe (75002 / 10 ^ 8 : ℚ) (15001 / 10) := by
  constructor
  · exact ⟨by norm_num, by unfold fieldLimit; norm_num⟩
  · rintro ⟨_, h⟩
    revert h
    unfold fieldLimit
    norm_num

/-- 230 V: 24 µm. -/
example : SearchReturns (some (230 : ℚ)) (24 / 10 ^ 6) := ⟨25, by decide +kernel⟩

end Verif.Insulation
