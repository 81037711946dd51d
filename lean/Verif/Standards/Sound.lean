import Verif.Standards.Spec
import Verif.Standards.Mono
import Verif.Standards.Tables

/-! # The shipped tables meet the conditions -/

set_option linter.unusedSectionVars false
set_option linter.unusedSimpArgs false

namespace Verif.Standards

open Verif.Insulation Verif.Round

instance {p : Pd → Prop} [DecidablePred p] : Decidable (∀ x, p x) :=
  decidable_of_iff (p .pd1 ∧ p .pd2 ∧ p .pd3)
    ⟨fun h x => by cases x; exacts [h.1, h.2.1, h.2.2], fun h => ⟨h _, h _, h _⟩⟩

instance {p : Ovc → Prop} [DecidablePred p] : Decidable (∀ x, p x) :=
  decidable_of_iff (p .i ∧ p .ii ∧ p .iii ∧ p .iv)
    ⟨fun h x => by cases x; exacts [h.1, h.2.1, h.2.2.1, h.2.2.2], fun h => ⟨h _, h _, h _, h _⟩⟩

instance {p : Cti → Prop} [DecidablePred p] : Decidable (∀ x, p x) :=
  decidable_of_iff (p .groupI ∧ p .groupII ∧ p .groupIIIA ∧ p .groupIIIB)
    ⟨fun h x => by cases x; exacts [h.1, h.2.1, h.2.2.1, h.2.2.2], fun h => ⟨h _, h _, h _, h _⟩⟩

instance {p : Cls → Prop} [DecidablePred p] : Decidable (∀ x, p x) :=
  decidable_of_iff (p .functional ∧ p .basic ∧ p .supplementary ∧ p .reinforced ∧ p .double)
    ⟨fun h x => by cases x; exacts [h.1, h.2.1, h.2.2.1, h.2.2.2.1, h.2.2.2.2], fun h => ⟨h _, h _, h _, h _, h _⟩⟩

variable {K : Type} [Field K] [LinearOrder K] [IsStrictOrderedRing K]

/-- At least two rows, increasing: a check. -/
def rowsB (t : Table K) : Bool := incrB t && decide (2 ≤ t.length)

theorem rows_of_B {t : Table K} (h : rowsB t = true) : Rows t := by
  simp only [rowsB, Bool.and_eq_true, decide_eq_true_eq] at h
  exact ⟨incr_of_incrB h.1, h.2⟩

/-- All values at least `m`: a check. -/
def atLeastB (m : K) (t : Table K) : Bool := t.all fun r => decide (m ≤ r.2)

theorem atLeast_of_B {m : K} {t : Table K} (h : atLeastB m t = true) : AtLeast m t := by
  intro r hr
  simpa using List.all_eq_true.mp h r hr

theorem rows_ge_of_B {m : K} {t : Table K} (h : rowsB t = true ∧ atLeastB m t = true) : Rows t ∧ AtLeast m t :=
  ⟨rows_of_B h.1, atLeast_of_B h.2⟩

theorem incr_ge_of_B {m : K} {t : Table K} (h : incrB t = true ∧ atLeastB m t = true) : Increasing t ∧ AtLeast m t :=
  ⟨incr_of_incrB h.1, atLeast_of_B h.2⟩

/-- `FreqBelow`: a check. -/
def freqBelowB : FreqTable K → FreqTable K → Bool
  | [], [] => true
  | a :: l, b :: m => decide (a.1 = b.1) && rowsB a.2 && rowsB b.2 && belowExtB a.2 b.2 && freqBelowB l m
  | _, _ => false

theorem freqBelow_of_B {t u : FreqTable K} (h : freqBelowB t u = true) : FreqBelow t u := by
  induction t generalizing u with
  | nil =>
    cases u with
    | nil => exact List.Forall₂.nil
    | cons b m => simp [freqBelowB] at h
  | cons a l ih =>
    cases u with
    | nil => simp [freqBelowB] at h
    | cons b m =>
      simp only [freqBelowB, Bool.and_eq_true, decide_eq_true_eq] at h
      obtain ⟨⟨⟨⟨h1, h2⟩, h3⟩, h4⟩, h5⟩ := h
      exact List.Forall₂.cons ⟨h1, rows_of_B h2, rows_of_B h3, below_of_belowExtB (rows_of_B h2) (rows_of_B h3) h4⟩
        (ih h5)

/-- `Keys`: a check. -/
def keysB (prev : K) : FreqTable K → Bool
  | [] => true
  | a :: l => decide (prev < a.1) && keysB a.1 l

theorem keys_of_B {prev : K} {t : FreqTable K} (h : keysB prev t = true) : Keys prev t := by
  induction t generalizing prev with
  | nil => trivial
  | cons a l ih =>
    simp only [keysB, Bool.and_eq_true, decide_eq_true_eq] at h
    exact ⟨h.1, ih h.2⟩

/-- The row the table ends with. -/
def lastOf (t : Table K) : K × K :=
  match t with
  | [] => (0, 0)
  | a :: l => lastRow a l

theorem le_lastRow {a : K × K} {l : Table K} (h : Increasing (a :: l)) : ∀ r ∈ a :: l, r.1 ≤ (lastRow a l).1 := by
  induction l generalizing a with
  | nil => intro r hr; simp only [List.mem_singleton] at hr; subst hr; exact le_refl _
  | cons b l ih =>
    intro r hr
    have hb := ih (List.pairwise_cons.mp h).2
    rcases List.mem_cons.mp hr with rfl | hr
    · exact le_trans ((List.pairwise_cons.mp h).1 b (by simp)).1.le (hb b (by simp))
    · exact hb r hr

theorem inside_iff {t : Table K} (ht : Rows t) (x : K) : inside t x = true ↔ x < (lastOf t).1 := by
  obtain ⟨a, b, l, rfl⟩ := two_rows ht.2
  simp only [inside, List.any_eq_true, decide_eq_true_eq, lastOf]
  constructor
  · rintro ⟨r, hr, h⟩
    exact lt_of_lt_of_le h (le_lastRow ht.1 r hr)
  · intro h
    exact ⟨_, lastRow_mem a (b :: l), h⟩

theorem not_inside_iff {t : Table K} (ht : Rows t) (x : K) : inside t x = false ↔ (lastOf t).1 ≤ x := by
  rw [← not_lt, ← inside_iff ht]
  simp

theorem interp_last {t : Table K} (ht : Rows t) : interp t (lastOf t).1 = .ok (lastOf t).2 := by
  obtain ⟨a, b, l, rfl⟩ := two_rows ht.2
  exact interp_at_row ht.1 ht.2 (lastRow_mem a (b :: l))

theorem interp_le_last {t : Table K} (ht : Rows t) {x v : K} (hx : inside t x = true) (hv : interp t x = .ok v) :
    v ≤ (lastOf t).2 :=
  interp_mono ht.1 ht.2 ((inside_iff ht x).mp hx).le hv (interp_last ht)

/-- Compared row by row, without the extrapolation: a check. -/
def belowInB : Table K → Table K → Bool
  | [a, b], [c, d] => decide (a.1 = c.1) && decide (b.1 = d.1) && decide (a.2 ≤ c.2) && decide (b.2 ≤ d.2)
  | a :: b :: e :: l, c :: d :: f :: m =>
    decide (a.1 = c.1) && decide (a.2 ≤ c.2) && belowInB (b :: e :: l) (d :: f :: m)
  | _, _ => false

theorem belowInB_fst {t u : Table K} {a c : K × K} {l m : Table K} (ht : t = a :: l) (hu : u = c :: m)
    (h : belowInB t u = true) : a.1 = c.1 ∧ a.2 ≤ c.2 := by
  subst ht; subst hu
  match l, m, h with
  | [b], [d], h =>
    simp only [belowInB, Bool.and_eq_true, decide_eq_true_eq] at h
    exact ⟨h.1.1.1, h.1.2⟩
  | b :: e :: l, d :: f :: m, h =>
    simp only [belowInB, Bool.and_eq_true, decide_eq_true_eq] at h
    exact h.1
  | [], m, h => simp [belowInB] at h
  | [b], [], h => simp [belowInB] at h
  | [b], d :: f :: m, h => simp [belowInB] at h
  | b :: e :: l, [], h => simp [belowInB] at h
  | b :: e :: l, [d], h => simp [belowInB] at h

theorem pl_le_in {a b c d : K × K} {l m : Table K} (hi : Incr (a :: b :: l)) (hj : Incr (c :: d :: m))
    (h : belowInB (a :: b :: l) (c :: d :: m) = true) {x : K} (hx : a.1 ≤ x) (hx' : x ≤ (lastRow a (b :: l)).1) :
    pl x a (b :: l) ≤ pl x c (d :: m) := by
  induction l generalizing a b c d m with
  | nil =>
    cases m with
    | cons f m => simp [belowInB] at h
    | nil =>
      simp only [belowInB, Bool.and_eq_true, decide_eq_true_eq] at h
      exact line_le hi.head.1 h.1.1.1 h.1.1.2 h.1.2 h.2 hx (Or.inl hx')
  | cons e l ih =>
    cases m with
    | nil => simp [belowInB] at h
    | cons f m =>
      have h' := h
      simp only [belowInB, Bool.and_eq_true, decide_eq_true_eq] at h
      have hb := belowInB_fst rfl rfl h.2
      simp only [pl]
      rw [← hb.1]
      by_cases hxb : x ≤ b.1
      · rw [if_pos hxb, if_pos hxb]
        exact line_le hi.head.1 h.1.1 hb.1 h.1.2 hb.2 hx (Or.inl hxb)
      · rw [if_neg hxb, if_neg hxb]
        exact ih hi.tail hj.tail h.2 (not_le.mp hxb).le hx'

theorem belowIn_of_B {t u : Table K} (ht : Rows t) (hu : Rows u) (h : belowInB t u = true) {x v w : K}
    (hx : x ≤ (lastOf t).1) (hv : interp t x = .ok v) (hw : interp u x = .ok w) : v ≤ w := by
  obtain ⟨a, b, l, rfl⟩ := two_rows ht.2
  obtain ⟨c, d, m, rfl⟩ := two_rows hu.2
  rw [interp_eq ht.1] at hv
  rw [interp_eq hu.1] at hw
  simp only [Val.ok.injEq] at hv hw
  subst hv; subst hw
  have h0 := belowInB_fst rfl rfl h
  rw [← h0.1]
  by_cases hxa : x < a.1
  · rw [if_pos hxa, if_pos hxa]; exact h0.2
  · rw [if_neg hxa, if_neg hxa]
    exact pl_le_in ht.1 hu.1 h (not_lt.mp hxa) hx

/-- `HandsOver`: a check. -/
def handsB (T : T60664 K) (t : Table K) : Bool :=
  (T.f8.all fun r => !decide ((lastOf t).1 ≤ r.1) || decide ((lastOf t).2 ≤ r.2)) &&
  ([Ovc.i, .ii, .iii, .iv].all fun o => [false, true].all fun b => (f1Rows T o b).all fun r =>
    !decide ((lastOf t).1 ≤ r.2) || [Pd.pd1, .pd2, .pd3].all fun p =>
      match lookupLe (T.f2 p) r.2 with
      | some w => decide ((lastOf t).2 ≤ w)
      | none => true) &&
  (match interp T.p4t1 (lastOf t).1 with
   | .ok w => decide ((lastOf t).2 ≤ w)
   | _ => false)

theorem hands_step {t u : Table K} (ht : Rows t)
    (h : (u.all fun r => !decide ((lastOf t).1 ≤ r.1) || decide ((lastOf t).2 ≤ r.2)) = true) {x y v w : K}
    (hx : inside t x = true) (hy : inside t y = false) (hv : interp t x = .ok v) (hw : lookupLe u y = some w) :
    v ≤ w := by
  obtain ⟨r, hr, rfl, hyr⟩ := lookupLe_mem hw
  have h1 := List.all_eq_true.mp h r hr
  have h2 := le_trans ((not_inside_iff ht y).mp hy) hyr
  have h3 : (lastOf t).2 ≤ r.2 := by simpa [h2] using h1
  exact le_trans (interp_le_last ht hx hv) h3

theorem hands_of_B {T : T60664 K} {t : Table K} (ht : Rows t) (h4 : Rows T.p4t1) (h : handsB T t = true) :
    HandsOver T t := by
  simp only [handsB, Bool.and_eq_true] at h
  obtain ⟨⟨h8, h1⟩, h2⟩ := h
  refine ⟨?_, ?_, ?_⟩
  · intro o b r hr p x v w hx hy hv hw
    have h3 := List.all_eq_true.mp (List.all_eq_true.mp (List.all_eq_true.mp h1 o (by cases o <;> simp)) b
      (by cases b <;> simp)) r hr
    have h4 := (not_inside_iff ht r.2).mp hy
    simp only [h4, decide_true, Bool.not_true, Bool.false_or] at h3
    have h5 := List.all_eq_true.mp h3 p (by cases p <;> simp)
    simp only [hw, decide_eq_true_eq] at h5
    exact le_trans (interp_le_last ht hx hv) h5
  · intro x y v w hx hy hv hw
    exact hands_step ht h8 hx hy hv hw
  · intro x y v w hx hy hv hw
    cases hl : interp T.p4t1 (lastOf t).1 with
    | ok z =>
      rw [hl] at h2
      simp only [decide_eq_true_eq] at h2
      exact le_trans (interp_le_last ht hx hv)
        (le_trans h2 (interp_mono h4.1 h4.2 ((not_inside_iff ht y).mp hy) hl hw))
    | dblMax => rw [hl] at h2; simp at h2
    | notFinite => rw [hl] at h2; simp at h2
    | ub => rw [hl] at h2; simp at h2

/-- The condition on table 4 of part 5 between two keys: a check. -/
def planarB (t t' : Table K) (u : Option (Table K)) : Bool :=
  belowExtB t t' && decide ((lastOf t').1 ≤ (lastOf t).1) &&
  (match u with
   | none => true
   | some u => u.all fun r => !decide ((lastOf t').1 ≤ r.1) ||
      (match interp t (min r.1 (lastOf t).1) with
       | .ok v => decide (v ≤ r.2)
       | _ => false))

theorem planar_of_B {t t' : Table K} {o : Option (Table K)} (ht : Rows t) (ht' : Rows t') (h : planarB t t' o = true) :
    Below t t' ∧ (∀ x, inside t' x = true → inside t x = true) ∧
    ∀ u x y v w, o = some u → inside t x = true → inside t' y = false → x ≤ y → interp t x = .ok v →
      lookupLt u y = some w → v ≤ w := by
  simp only [planarB, Bool.and_eq_true, decide_eq_true_eq] at h
  obtain ⟨⟨h1, h2⟩, h3⟩ := h
  refine ⟨below_of_belowExtB ht ht' h1, ?_, ?_⟩
  · intro x hx
    rw [inside_iff ht'] at hx
    rw [inside_iff ht]
    exact lt_of_lt_of_le hx h2
  · rintro u x y v w rfl hx hy hxy hv hw
    obtain ⟨r, hr, rfl, hyr⟩ := lookupLt_mem hw
    have h4 := List.all_eq_true.mp h3 r hr
    have h5 : (lastOf t').1 ≤ r.1 := le_trans ((not_inside_iff ht' y).mp hy) hyr.le
    obtain ⟨z, hz⟩ := interp_total ht.1 ht.2 (min r.1 (lastOf t).1)
    have h6 : z ≤ r.2 := by simpa [h5, hz] using h4
    have h7 : x ≤ min r.1 (lastOf t).1 := le_min (le_trans hxy hyr.le) ((inside_iff ht x).mp hx).le
    exact le_trans (interp_mono ht.1 ht.2 h7 hv hz) h6

/-- Both optional tables present: a check on them. -/
def optB (a b : Option (Table K)) (f : Table K → Table K → Bool) : Bool :=
  match a, b with
  | some t, some u => f t u
  | _, _ => true

theorem optB_some {a b : Option (Table K)} {f : Table K → Table K → Bool} {t u : Table K} (h : optB a b f = true)
    (ha : a = some t) (hb : b = some u) : f t u = true := by
  subst ha; subst hb; exact h

namespace Shipped

/-- The shipped tables of IEC 60664 meet the conditions. -/
theorem sound664 : Sound664 t664 := by
  have hp41 : Rows t664.p4t1 := rows_of_B (by decide +kernel)
  have h52 : Rows t664.p5t2 := rows_of_B (by decide +kernel)
  have h53 : Rows t664.p5t3 := rows_of_B (by decide +kernel)
  have hf1 : ∀ o b, Increasing (f1Rows t664 o b) := fun o b =>
    incr_of_incrB ((by decide +kernel : ∀ o b, incrB (f1Rows t664 o b) = true) o b)
  have hf2 : ∀ p, Increasing (t664.f2 p) ∧ AtLeast 0 (t664.f2 p) := fun p =>
    incr_ge_of_B ((by decide +kernel : ∀ p, incrB (t664.f2 p) = true ∧ atLeastB 0 (t664.f2 p) = true) p)
  have hf5 : ∀ p c t, t664.f5 p c = some t → Increasing t ∧ AtLeast 0 t := fun p c t h =>
    incr_ge_of_B (by
      have := (by decide +kernel : ∀ p c, optB (t664.f5 p c) (t664.f5 p c)
        (fun t _ => incrB t && atLeastB 0 t) = true) p c
      have := optB_some this h h
      simpa using this)
  have h54 : ∀ p c t, t664.p5t4 p c = some t → Rows t ∧ AtLeast 0 t := fun p c t h =>
    rows_ge_of_B (by
      have := (by decide +kernel : ∀ p c, optB (t664.p5t4 p c) (t664.p5t4 p c)
        (fun t _ => rowsB t && atLeastB 0 t) = true) p c
      have := optB_some this h h
      simpa using this)
  exact
    { a2 := rows_of_B (by decide +kernel)
      a2_ge := atLeast_of_B (by decide +kernel)
      f1 := hf1
      f1_le := fun o o' b b' ho hb => stepBelow_of_B (hf1 o b)
        ((by decide +kernel : ∀ o o' b b', o.rank ≤ o'.rank → (b = true → b' = true) →
          stepBelowB (f1Rows t664 o b) (f1Rows t664 o' b') = true) o o' b b' ho hb)
      f2 := hf2
      f2_le := fun p p' hp => stepBelow_of_B (hf2 p).1
        ((by decide +kernel : ∀ p p' : Pd, p.rank ≤ p'.rank → stepBelowB (t664.f2 p) (t664.f2 p') = true) p p' hp)
      f3 := incr_of_incrB (by decide +kernel)
      f5 := hf5
      f5_le := fun p p' c c' t t' hp hc h h' => stepBelowLt_of_B (hf5 p c t h).1
        (optB_some ((by decide +kernel : ∀ (p p' : Pd) (c c' : Cti), p.rank ≤ p'.rank → c.rank ≤ c'.rank →
          optB (t664.f5 p c) (t664.f5 p' c') stepBelowB = true) p p' c c' hp hc) h h')
      f8 := incr_of_incrB (by decide +kernel)
      f8_ge := atLeast_of_B (by decide +kernel)
      p4t1 := hp41
      p4t1_f8 := by
        intro r hr w hw
        have := (by decide +kernel : ∀ r ∈ t664.f8, (match interp t664.p4t1 r.1 with
          | .ok w => decide (r.2 ≤ w)
          | _ => false) = true) r hr
        rw [hw] at this
        simpa using this
      p4t2 := ⟨fun r hr => rows_ge_of_B ((by decide +kernel : ∀ r ∈ t664.p4t2, rowsB r.2 = true ∧ atLeastB 0 r.2 = true) r hr),
        keys_of_B (by decide +kernel)⟩
      p5t2 := h52
      p5t3 := h53
      p5_nonneg := ⟨atLeast_of_B (by decide +kernel), atLeast_of_B (by decide +kernel)⟩
      p5t2_over := hands_of_B h52 hp41 (by decide +kernel)
      p5t3_over := hands_of_B h53 hp41 (by decide +kernel)
      p5_inside := by
        intro x
        have e : (lastOf t664.p5t2).1 = (lastOf t664.p5t3).1 := by decide +kernel
        rw [Bool.eq_iff_iff, inside_iff h52, inside_iff h53, e]
      p5_le := by
        refine ⟨330, fun o b => atLeast_of_B
          ((by decide +kernel : ∀ o b, atLeastB 330 (f1Rows t664 o b) = true) o b), ?_⟩
        intro x hx v w hv hw
        have e : t664.p5t3 = t664.p5t3.take 7 ++ t664.p5t3.drop 7 := (List.take_append_drop 7 _).symm
        have hr : Rows (t664.p5t3.drop 7) := rows_of_B (by decide +kernel)
        have hh : (t664.p5t3.drop 7).head? = some (330, 1 / 10 ^ 5) := by decide +kernel
        rw [e, interp_drop (by rw [← e]; exact h53.1) hr.2 (by
          intro r hr
          rw [hh] at hr
          simp only [Option.mem_def, Option.some.injEq] at hr
          subst hr
          exact hx)] at hw
        exact below_of_belowExtB h52 hr (by decide +kernel) x v w hv hw
      p5t4 := h54
      p5t4_le := fun p p' c c' t t' hp hc h h' => planar_of_B (h54 p c t h).1 (h54 p' c' t' h').1
        (optB_some (f := fun t u => planarB t u (t664.f5 p' c'))
          ((by decide +kernel : ∀ (p p' : Pd) (c c' : Cti), p.rank ≤ p'.rank → c.rank ≤ c'.rank →
          optB (t664.p5t4 p c) (t664.p5t4 p' c') (fun t u => planarB t u (t664.f5 p' c')) = true) p p' c c' hp hc) h h') }

/-- The shipped tables of IEC 62368 meet the conditions. -/
theorem sound623 : Sound623 t623 := by
  have h10 : ∀ b p, Rows (t623.t10 b p) ∧ AtLeast 0 (t623.t10 b p) := fun b p => rows_ge_of_B
    ((by decide +kernel : ∀ b p, rowsB (t623.t10 b p) = true ∧ atLeastB 0 (t623.t10 b p) = true) b p)
  have h11 : ∀ b, Rows (t623.t11 b) ∧ AtLeast 0 (t623.t11 b) := fun b => rows_ge_of_B
    ((by decide +kernel : ∀ b, rowsB (t623.t11 b) = true ∧ atLeastB 0 (t623.t11 b) = true) b)
  have h12 : ∀ o, Increasing (t623.t12 o) := fun o => incr_of_incrB ((by decide +kernel : ∀ o, incrB (t623.t12 o) = true) o)
  have h14 : ∀ b p, Rows (t623.t14 b p) ∧ AtLeast 0 (t623.t14 b p) := fun b p => rows_ge_of_B
    ((by decide +kernel : ∀ b p, rowsB (t623.t14 b p) = true ∧ atLeastB 0 (t623.t14 b p) = true) b p)
  have h17 : ∀ p c, Rows (t623.t17 p c) ∧ AtLeast 0 (t623.t17 p c) := fun p c => rows_ge_of_B
    ((by decide +kernel : ∀ p c, rowsB (t623.t17 p c) = true ∧ atLeastB 0 (t623.t17 p c) = true) p c)
  have h18 : ∀ r ∈ t623.t18, Rows r.2 ∧ AtLeast 0 r.2 := fun r hr => rows_ge_of_B
    ((by decide +kernel : ∀ r ∈ t623.t18, rowsB r.2 = true ∧ atLeastB 0 r.2 = true) r hr)
  have h25 : ∀ b, Rows (t623.t25 b) := fun b => rows_of_B ((by decide +kernel : ∀ b, rowsB (t623.t25 b) = true) b)
  have h26 : ∀ b, Rows (t623.t26 b) := fun b => rows_of_B ((by decide +kernel : ∀ b, rowsB (t623.t26 b) = true) b)
  have h27 : ∀ b, Increasing (t623.t27 b) := fun b => incr_of_incrB ((by decide +kernel : ∀ b, incrB (t623.t27 b) = true) b)
  have h13 : ∀ b, Rows (t623.g13 b) := fun b => rows_of_B ((by decide +kernel : ∀ b, rowsB (t623.g13 b) = true) b)
  exact
    { t10 := h10
      t10_le := fun b b' p p' hb hp => below_of_belowExtB (h10 _ _).1 (h10 _ _).1
        ((by decide +kernel : ∀ (b b' : Bool) (p p' : Pd), (b = true → b' = true) → p.rank ≤ p'.rank →
          belowExtB (t623.t10 b p) (t623.t10 b' p') = true) b b' p p' hb hp)
      t11 := h11
      t11_le := below_of_belowExtB (h11 _).1 (h11 _).1 (by decide +kernel)
      t12 := h12
      t12_le := fun o o' ho => stepBelow_of_B (h12 o)
        ((by decide +kernel : ∀ o o' : Ovc, o.rank ≤ o'.rank → stepBelowB (t623.t12 o) (t623.t12 o') = true) o o' ho)
      t14 := h14
      t14_le := fun b b' p p' hb hp => below_of_belowExtB (h14 _ _).1 (h14 _ _).1
        ((by decide +kernel : ∀ (b b' : Bool) (p p' : Pd), (b = true → b' = true) → p.rank ≤ p'.rank →
          belowExtB (t623.t14 b p) (t623.t14 b' p') = true) b b' p p' hb hp)
      t16 := rows_of_B (by decide +kernel)
      t17 := h17
      t17_le := fun p p' c c' hp hc => below_of_belowExtB (h17 _ _).1 (h17 _ _).1
        ((by decide +kernel : ∀ (p p' : Pd) (c c' : Cti), p.rank ≤ p'.rank → c.rank ≤ c'.rank →
          belowExtB (t623.t17 p c) (t623.t17 p' c') = true) p p' c c' hp hc)
      t18 := by
        refine ⟨⟨fun r hr => (h18 r hr).1, ?_⟩, fun r hr => (h18 r hr).2⟩
        have : t623.t18.Pairwise fun a b => a.1 < b.1 ∧ belowExtB a.2 b.2 = true := by decide +kernel
        have this := List.Pairwise.and_mem.mp this
        exact this.imp fun ⟨ha, hb, h1, h2⟩ => ⟨h1, below_of_belowExtB (h18 _ ha).1 (h18 _ hb).1 h2⟩
      t25 := h25
      t25_le := below_of_belowExtB (h25 _) (h25 _) (by decide +kernel)
      t26 := h26
      t26_le := below_of_belowExtB (h26 _) (h26 _) (by decide +kernel)
      t27 := h27
      t27_le := stepBelowLt_of_B (h27 _) (by decide +kernel)
      g13 := h13
      g13_le := below_of_belowExtB (h13 _) (h13 _) (by decide +kernel) }

/-- The shipped tables of IEC 61558 meet the conditions. -/
theorem sound615 : Sound615 t615 := by
  have h14 : ∀ o c, Rows (t615.t14 o c) := fun o c =>
    rows_of_B ((by decide +kernel : ∀ o c, rowsB (t615.t14 o c) = true) o c)
  have h20 : ∀ o c p, Increasing (t615.t20 o c p) ∧ AtLeast 0 (t615.t20 o c p) := fun o c p => incr_ge_of_B
    ((by decide +kernel : ∀ o c p, incrB (t615.t20 o c p) = true ∧ atLeastB 0 (t615.t20 o c p) = true) o c p)
  have h21 : ∀ g c p, c ≠ .functional → Rows (t615.t21 g c p) ∧ AtLeast 0 (t615.t21 g c p) := fun g c p hc =>
    rows_ge_of_B ((by decide +kernel : ∀ g c p, c ≠ .functional →
      rowsB (t615.t21 g c p) = true ∧ atLeastB 0 (t615.t21 g c p) = true) g c p hc)
  have h22 : ∀ c, c ≠ .functional → c ≠ .basic → Rows (t615.t22 c) ∧ AtLeast 0 (t615.t22 c) := fun c hc hb =>
    rows_ge_of_B ((by decide +kernel : ∀ c, c ≠ .functional → c ≠ .basic →
      rowsB (t615.t22 c) = true ∧ atLeastB 0 (t615.t22 c) = true) c hc hb)
  have h103 : ∀ b, Increasing (t615.t103 b) ∧ AtLeast 0 (t615.t103 b) := fun b => incr_ge_of_B
    ((by decide +kernel : ∀ b, incrB (t615.t103 b) = true ∧ atLeastB 0 (t615.t103 b) = true) b)
  have h104 : ∀ b, Increasing (t615.t104 b) := fun b =>
    incr_of_incrB ((by decide +kernel : ∀ b, incrB (t615.t104 b) = true) b)
  exact
    { t14 := h14
      t14_le := fun o o' c c' ho hc x hx v w hv hw => belowIn_of_B (h14 _ _) (h14 _ _)
        ((by decide +kernel : ∀ (o o' : Ovc) (c c' : Cls), o.rank ≤ o'.rank → c.le c' →
          belowInB (t615.t14 o c) (t615.t14 o' c') = true) o o' c c' ho hc) (le_trans hx
        ((by decide +kernel : ∀ (o : Ovc) (c : Cls), 1000 ≤ (lastOf (t615.t14 o c)).1) o c)) hv hw
      t20 := h20
      t20_le := fun o o' c c' p p' ho hc hp h1 h2 => stepBelow_of_B (h20 _ _ _).1
        ((by decide +kernel : ∀ (o o' : Ovc) (c c' : Cls) (p p' : Pd), o.rank ≤ o'.rank → c.le c' → p.rank ≤ p'.rank →
          p ≠ .pd1 → c ≠ .functional → stepBelowB (t615.t20 o c p) (t615.t20 o' c' p') = true) o o' c c' p p' ho hc hp h1 h2)
      t21 := h21
      t21_le := fun g g' c c' p p' hg hc hp h1 => below_of_belowExtB (h21 _ _ _ h1).1
          (h21 _ _ _ (fun h => h1 (Cls.functional_of_le hc h))).1
        ((by decide +kernel : ∀ (g g' : Cti) (c c' : Cls) (p p' : Pd), g.rank ≤ g'.rank → c.le c' → p.rank ≤ p'.rank →
          c ≠ .functional → belowExtB (t615.t21 g c p) (t615.t21 g' c' p') = true) g g' c c' p p' hg hc hp h1)
      t22 := h22
      t22_le := fun c c' hc h1 h2 => below_of_belowExtB (h22 _ h1 h2).1
          (h22 _ (fun h => h1 (Cls.functional_of_le hc h))
            (fun h => (Cls.basic_of_le hc (Or.inr h)).elim h1 h2)).1
        ((by decide +kernel : ∀ (c c' : Cls), c.le c' → c ≠ .functional → c ≠ .basic →
          belowExtB (t615.t22 c) (t615.t22 c') = true) c c' hc h1 h2)
      t103 := h103
      t103_le := stepBelow_of_B (h103 _).1 (by decide +kernel)
      t104 := h104
      t104_le := stepBelow_of_B (h104 _) (by decide +kernel)
      tHigh := fun b p => ⟨fun r hr => atLeast_of_B
          ((by decide +kernel : ∀ b p, ∀ r ∈ t615.tHigh b p, atLeastB 0 r.2 = true) b p r hr),
        keys_of_B ((by decide +kernel : ∀ b p, keysB lineFrequency (t615.tHigh b p) = true) b p)⟩
      tHigh_le := fun b b' p p' hb hp => freqBelow_of_B
        ((by decide +kernel : ∀ (b b' : Bool) (p p' : Pd), (b = true → b' = true) → p.rank ≤ p'.rank →
          freqBelowB (t615.tHigh b p) (t615.tHigh b' p') = true) b b' p p' hb hp) }

/-- The shipped tables of IEC 60335 meet the conditions. -/
theorem sound603 : Sound603 t603 := by
  have h7 : ∀ c, Increasing (t603.t7 c) ∧ AtLeast 0 (t603.t7 c) := fun c => incr_ge_of_B
    ((by decide +kernel : ∀ c, incrB (t603.t7 c) = true ∧ atLeastB 0 (t603.t7 c) = true) c)
  have h15 : ∀ o, Increasing (t603.t15 o) := fun o => incr_of_incrB ((by decide +kernel : ∀ o, incrB (t603.t15 o) = true) o)
  have h16 : ∀ b, Increasing (t16Rows t603 b) := fun b =>
    incr_of_incrB ((by decide +kernel : ∀ b, incrB (t16Rows t603 b) = true) b)
  have h17 : ∀ p c, Increasing (t603.t17 p c) ∧ AtLeast 0 (t603.t17 p c) := fun p c => incr_ge_of_B
    ((by decide +kernel : ∀ p c, incrB (t603.t17 p c) = true ∧ atLeastB 0 (t603.t17 p c) = true) p c)
  have h18 : ∀ p c, Increasing (t603.t18 p c) ∧ AtLeast 0 (t603.t18 p c) := fun p c => incr_ge_of_B
    ((by decide +kernel : ∀ p c, incrB (t603.t18 p c) = true ∧ atLeastB 0 (t603.t18 p c) = true) p c)
  have h19 : ∀ o, Increasing (t603.t19 o) := fun o => incr_of_incrB ((by decide +kernel : ∀ o, incrB (t603.t19 o) = true) o)
  exact
    { t7 := h7
      t7_le := fun c c' hc h1 => stepBelow_of_B (h7 _).1
        ((by decide +kernel : ∀ c c' : Cls, c.le c' → c ≠ .functional →
          stepBelowB (t603.t7 c) (t603.t7 c') = true) c c' hc h1)
      t15 := h15
      t15_le := fun o o' ho h1 => stepBelow_of_B (h15 _)
        ((by decide +kernel : ∀ o o' : Ovc, o.rank ≤ o'.rank → o' ≠ .iv →
          stepBelowB (t603.t15 o) (t603.t15 o') = true) o o' ho h1)
      t16 := h16
      t16_le := stepBelow_of_B (h16 _) (by decide +kernel)
      t16_ge := fun b => atLeast_of_B ((by decide +kernel : ∀ b, atLeastB (2 / 10000) (t16Rows t603 b) = true) b)
      t16_low := by
        intro b x v hv hx
        obtain ⟨z, hz⟩ : ∃ z, lookupLe (t16Rows t603 b) (if b then 800 else 1500) = some z ∧ z ≤ 8 / 10000 := by
          cases b
          · exact ⟨5 / 10000, by decide +kernel, by norm_num⟩
          · exact ⟨5 / 10000, by decide +kernel, by norm_num⟩
        exact le_trans (lookupLe_mono (h16 b) hx hv hz.1) hz.2
      t16_high := by
        intro b x v hv hx
        obtain ⟨r, hr, rfl, hxr⟩ := lookupLe_mem hv
        have h := (by decide +kernel : ∀ b, ∀ r ∈ t16Rows t603 b, (if b then 800 else 1500) < r.1 →
          (8 / 10000 : ℚ) ≤ r.2) b r hr
        exact h (lt_of_lt_of_le hx hxr)
      t17 := h17
      t17_le := fun p p' c c' hp hc => stepBelow_of_B (h17 _ _).1
        ((by decide +kernel : ∀ (p p' : Pd) (c c' : Cti), p.rank ≤ p'.rank → c.rank ≤ c'.rank →
          stepBelowB (t603.t17 p c) (t603.t17 p' c') = true) p p' c c' hp hc)
      t18 := h18
      t18_le := fun p p' c c' hp hc => stepBelow_of_B (h18 _ _).1
        ((by decide +kernel : ∀ (p p' : Pd) (c c' : Cti), p.rank ≤ p'.rank → c.rank ≤ c'.rank →
          stepBelowB (t603.t18 p c) (t603.t18 p' c') = true) p p' c c' hp hc)
      t18_t17 := fun p p' c c' hp hc => stepBelow_of_B (h18 _ _).1
        ((by decide +kernel : ∀ (p p' : Pd) (c c' : Cti), p.rank ≤ p'.rank → c.rank ≤ c'.rank →
          stepBelowB (t603.t18 p c) (t603.t17 p' c') = true) p p' c c' hp hc)
      t19 := h19
      t19_le := fun o o' ho h1 => stepBelow_of_B (h19 _)
        ((by decide +kernel : ∀ o o' : Ovc, o.rank ≤ o'.rank → o' ≠ .iv →
          stepBelowB (t603.t19 o) (t603.t19 o') = true) o o' ho h1) }

/-- All shipped tables meet the conditions. -/
theorem sound : Sound all := ⟨sound664, sound623, sound615, sound603⟩

end Shipped

end Verif.Standards
