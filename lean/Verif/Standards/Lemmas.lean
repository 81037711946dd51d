import Verif.Standards.Model
import Verif.Insulation.Props

/-! Helper lemmas for the four insulation standards. -/

set_option linter.unusedSectionVars false
set_option linter.unusedSimpArgs false

namespace Verif.Standards

open Verif.Insulation Verif.Round

variable {K : Type} [Field K] [LinearOrder K]

/-! ## Outcomes -/

namespace Out

/-- Where both answer, the first is at most the second. -/
def Le (a b : Out K) : Prop := ∀ v w, a = .ok v → b = .ok w → v ≤ w

theorem bind_eq_ok {K' : Type} {o : Out K} {f : K → Out K'} {w : K'} :
    o.bind f = .ok w ↔ ∃ v, o = .ok v ∧ f v = .ok w := by
  cases o with
  | ok v => simp [bind]
  | threw => simp [bind]
  | odd => simp [bind]

theorem bind_eq_odd {K' : Type} {o : Out K} {f : K → Out K'} :
    o.bind f = .odd ↔ o = .odd ∨ ∃ v, o = .ok v ∧ f v = .odd := by
  cases o with
  | ok v => simp [bind]
  | threw => simp [bind]
  | odd => simp [bind]

theorem ofOption_eq_ok {o : Option K} {v : K} : ofOption o = .ok v ↔ o = some v := by
  cases o <;> simp [ofOption]

theorem ofVal_eq_ok {o : Val K} {v : K} : ofVal o = .ok v ↔ o = .ok v := by
  cases o <;> simp [ofVal]

theorem ofOption_ne_odd (o : Option K) : ofOption o ≠ .odd := by
  cases o <;> simp [ofOption]

theorem max2_eq_ok {a b : Out K} {v : K} :
    a.max2 b = .ok v ↔ ∃ x y, a = .ok x ∧ b = .ok y ∧ v = max x y := by
  unfold max2
  rw [bind_eq_ok]
  constructor
  · rintro ⟨x, hx, h⟩
    rw [bind_eq_ok] at h
    obtain ⟨y, hy, h⟩ := h
    exact ⟨x, y, hx, hy, (ok.inj h).symm⟩
  · rintro ⟨x, y, hx, hy, rfl⟩
    exact ⟨x, hx, bind_eq_ok.mpr ⟨y, hy, rfl⟩⟩

theorem max2_eq_odd {a b : Out K} : a.max2 b = .odd ↔ a = .odd ∨ ((∃ x, a = .ok x) ∧ b = .odd) := by
  unfold max2
  rw [bind_eq_odd]
  constructor
  · rintro (h | ⟨x, hx, h⟩)
    · exact Or.inl h
    · rw [bind_eq_odd] at h
      rcases h with h | ⟨y, -, h⟩
      · exact Or.inr ⟨⟨x, hx⟩, h⟩
      · simp at h
  · rintro (h | ⟨⟨x, hx⟩, h⟩)
    · exact Or.inl h
    · exact Or.inr ⟨x, hx, bind_eq_odd.mpr (Or.inl h)⟩

theorem Le.bind {a b : Out K} {f g : K → Out K}
    (h : ∀ v w, a = .ok v → b = .ok w → (f v).Le (g w)) : (a.bind f).Le (b.bind g) := by
  intro x y hx hy
  rw [bind_eq_ok] at hx hy
  obtain ⟨v, hv, hx⟩ := hx
  obtain ⟨w, hw, hy⟩ := hy
  exact h v w hv hw x y hx hy

theorem Le.ok {v w : K} (h : v ≤ w) : (Out.ok v).Le (.ok w) := by
  intro a b ha hb
  cases ha; cases hb
  exact h

theorem Le.max2 {a b c d : Out K} (h1 : a.Le c) (h2 : b.Le d) : (a.max2 b).Le (c.max2 d) := by
  intro x y hx hy
  rw [max2_eq_ok] at hx hy
  obtain ⟨p, q, hp, hq, rfl⟩ := hx
  obtain ⟨r, s, hr, hs, rfl⟩ := hy
  exact max_le_max (h1 _ _ hp hr) (h2 _ _ hq hs)

theorem Le.max2_left {a b c : Out K} (h : a.Le b) : a.Le (b.max2 c) := by
  intro x y hx hy
  rw [max2_eq_ok] at hy
  obtain ⟨r, s, hr, -, rfl⟩ := hy
  exact le_trans (h _ _ hx hr) (le_max_left _ _)

theorem le_threw (a : Out K) : a.Le .threw := by intro v w _ h; simp at h

theorem threw_le (a : Out K) : Out.threw.Le a := by intro v w h _; simp at h

/-- Binding with a monotone function. -/
theorem Le.map {a b : Out K} {f g : K → K} (h : a.Le b) (hf : ∀ v w, v ≤ w → f v ≤ g w) :
    (a.bind fun x => .ok (f x)).Le (b.bind fun x => .ok (g x)) :=
  Le.bind fun v w hv hw => Le.ok (hf v w (h v w hv hw))

/-- Binding with functions comparable on answers of which something is known. -/
theorem Le.map' {a b : Out K} {f g : K → K} (h : a.Le b)
    (hf : ∀ v w, a = .ok v → b = .ok w → v ≤ w → f v ≤ g w) :
    (a.bind fun x => .ok (f x)).Le (b.bind fun x => .ok (g x)) :=
  Le.bind fun v w hv hw => Le.ok (hf v w hv hw (h v w hv hw))

end Out

variable [IsStrictOrderedRing K]

/-! ## Comparing tables -/

/-- The first table interpolates to at most the second, everywhere. -/
def Below (t u : Table K) : Prop := ∀ x v w, interp t x = .ok v → interp u x = .ok w → v ≤ w

/-- The first step table gives at most the second, everywhere both answer. -/
def StepBelow (t u : Table K) : Prop := ∀ x v w, lookupLe t x = some v → lookupLe u x = some w → v ≤ w

/-- The same for the look-ups with `<`. -/
def StepBelowLt (t u : Table K) : Prop := ∀ x v w, lookupLt t x = some v → lookupLt u x = some w → v ≤ w

/-- At least two rows, increasing. -/
def Rows (t : Table K) : Prop := Increasing t ∧ 2 ≤ t.length

theorem interp_le {t u : Table K} (ht : Rows t) (h : Below t u) {x y : K} (hxy : x ≤ y) :
    (Out.ofVal (interp t x)).Le (Out.ofVal (interp u y)) := by
  intro v w hv hw
  rw [Out.ofVal_eq_ok] at hv hw
  obtain ⟨z, hz⟩ := interp_total ht.1 ht.2 y
  exact le_trans (interp_mono ht.1 ht.2 hxy hv hz) (h y z w hz hw)

theorem Below.refl (t : Table K) : Below t t := by
  intro x v w hv hw
  rw [hv] at hw
  exact (Val.ok.inj hw).le

theorem StepBelow.refl (t : Table K) : StepBelow t t := by
  intro x v w hv hw
  rw [hv] at hw
  exact (Option.some.inj hw).le

theorem lookupLe_some_of_le {t : Table K} {x y w : K} (hxy : x ≤ y) (h : lookupLe t y = some w) :
    ∃ v, lookupLe t x = some v := by
  cases hl : lookupLe t x with
  | some v => exact ⟨v, rfl⟩
  | none =>
    have := (lookupLe_spec t x).2.mp hl
    obtain ⟨b, r, a, rfl, -, hr, -⟩ := ((lookupLe_spec t y).1 w).mp h
    exact absurd (lt_of_lt_of_le (this r (by simp)) hxy) (not_lt.mpr hr)

theorem lookupLt_some_of_le {t : Table K} {x y w : K} (hxy : x ≤ y) (h : lookupLt t y = some w) :
    ∃ v, lookupLt t x = some v := by
  cases hl : lookupLt t x with
  | some v => exact ⟨v, rfl⟩
  | none =>
    have := (lookupLt_spec t x).2.mp hl
    obtain ⟨b, r, a, rfl, -, hr, -⟩ := ((lookupLt_spec t y).1 w).mp h
    exact absurd (lt_of_lt_of_le hr (this r (by simp))) (not_lt.mpr hxy)

theorem lookup_le {t u : Table K} (hu : Increasing u) (h : StepBelow t u) {x y : K} (hxy : x ≤ y) :
    (Out.ofOption (lookupLe t x)).Le (Out.ofOption (lookupLe u y)) := by
  intro v w hv hw
  rw [Out.ofOption_eq_ok] at hv hw
  obtain ⟨z, hz⟩ := lookupLe_some_of_le hxy hw
  exact le_trans (h x v z hv hz) (lookupLe_mono hu hxy hz hw)

theorem lookupLt_le {t u : Table K} (hu : Increasing u) (h : StepBelowLt t u) {x y : K} (hxy : x ≤ y) :
    (Out.ofOption (lookupLt t x)).Le (Out.ofOption (lookupLt u y)) := by
  intro v w hv hw
  rw [Out.ofOption_eq_ok] at hv hw
  obtain ⟨z, hz⟩ := lookupLt_some_of_le hxy hw
  exact le_trans (h x v z hv hz) (lookupLt_mono hu hxy hz hw)

theorem lookupLe_mem {t : Table K} {x v : K} (h : lookupLe t x = some v) : ∃ r ∈ t, r.2 = v ∧ x ≤ r.1 := by
  obtain ⟨b, r, a, rfl, -, hr, rfl⟩ := ((lookupLe_spec t x).1 v).mp h
  exact ⟨r, by simp, rfl, hr⟩

theorem lookupLt_mem {t : Table K} {x v : K} (h : lookupLt t x = some v) : ∃ r ∈ t, r.2 = v ∧ x < r.1 := by
  obtain ⟨b, r, a, rfl, -, hr, rfl⟩ := ((lookupLt_spec t x).1 v).mp h
  exact ⟨r, by simp, rfl, hr⟩

theorem interp_ge_of_rows {t : Table K} (ht : Rows t) {c : K} (hc : ∀ r ∈ t, c ≤ r.2) {x v : K}
    (h : interp t x = .ok v) : c ≤ v := by
  obtain ⟨a, b, l, rfl⟩ := two_rows ht.2
  exact le_trans (hc a (by simp)) (interp_ge_first ht.1 h)

/-! ## Checks that decide the comparisons on concrete tables -/

/-- Same first column, second column below, and the last step of the difference does not shrink. -/
def belowB : Table K → Table K → Bool
  | [a, b], [c, d] =>
    decide (a.1 = c.1) && decide (b.1 = d.1) && decide (a.2 ≤ c.2) && decide (b.2 ≤ d.2) &&
      decide (c.2 - a.2 ≤ d.2 - b.2)
  | a :: b :: e :: l, c :: d :: f :: m =>
    decide (a.1 = c.1) && decide (a.2 ≤ c.2) && belowB (b :: e :: l) (d :: f :: m)
  | _, _ => false

theorem line_le {a b c d : K × K} (h : a.1 < b.1) (h1 : a.1 = c.1) (h2 : b.1 = d.1) (hac : a.2 ≤ c.2)
    (hbd : b.2 ≤ d.2) {x : K} (hx : a.1 ≤ x) (hx2 : x ≤ b.1 ∨ c.2 - a.2 ≤ d.2 - b.2) :
    line a b x ≤ line c d x := by
  simp only [line]
  rw [← h1, ← h2]
  have hp : 0 < b.1 - a.1 := sub_pos.mpr h
  have hs : 0 ≤ (x - a.1) / (b.1 - a.1) := div_nonneg (sub_nonneg.mpr hx) hp.le
  set s := (x - a.1) / (b.1 - a.1) with hsdef
  rcases hx2 with hx2 | hx2
  · have hs1 : s ≤ 1 := by rw [hsdef, div_le_one hp]; linarith
    nlinarith [mul_nonneg hs (sub_nonneg.mpr hbd), mul_nonneg (sub_nonneg.mpr hs1) (sub_nonneg.mpr hac)]
  · nlinarith [mul_nonneg hs (sub_nonneg.mpr hx2)]

theorem belowB_fst {t u : Table K} {a c : K × K} {l m : Table K} (ht : t = a :: l) (hu : u = c :: m)
    (h : belowB t u = true) : a.1 = c.1 ∧ a.2 ≤ c.2 := by
  subst ht; subst hu
  match l, m, h with
  | [b], [d], h =>
    simp only [belowB, Bool.and_eq_true, decide_eq_true_eq] at h
    exact ⟨h.1.1.1.1, h.1.1.2⟩
  | b :: e :: l, d :: f :: m, h =>
    simp only [belowB, Bool.and_eq_true, decide_eq_true_eq] at h
    exact h.1
  | [], m, h => simp [belowB] at h
  | [b], [], h => simp [belowB] at h
  | [b], d :: f :: m, h => simp [belowB] at h
  | b :: e :: l, [], h => simp [belowB] at h
  | b :: e :: l, [d], h => simp [belowB] at h

theorem pl_le {a b c d : K × K} {l m : Table K} (hi : Incr (a :: b :: l)) (hj : Incr (c :: d :: m))
    (h : belowB (a :: b :: l) (c :: d :: m) = true) {x : K} (hx : a.1 ≤ x) :
    pl x a (b :: l) ≤ pl x c (d :: m) := by
  induction l generalizing a b c d m with
  | nil =>
    cases m with
    | cons f m => simp [belowB] at h
    | nil =>
      simp only [belowB, Bool.and_eq_true, decide_eq_true_eq] at h
      exact line_le hi.head.1 h.1.1.1.1 h.1.1.1.2 h.1.1.2 h.1.2 hx (Or.inr h.2)
  | cons e l ih =>
    cases m with
    | nil => simp [belowB] at h
    | cons f m =>
      have h' := h
      simp only [belowB, Bool.and_eq_true, decide_eq_true_eq] at h
      have hb := belowB_fst rfl rfl h.2
      simp only [pl]
      rw [← hb.1]
      by_cases hxb : x ≤ b.1
      · rw [if_pos hxb, if_pos hxb]
        exact line_le hi.head.1 h.1.1 hb.1 h.1.2 hb.2 hx (Or.inl hxb)
      · rw [if_neg hxb, if_neg hxb]
        exact ih hi.tail hj.tail h.2 (not_le.mp hxb).le

theorem below_of_belowB {t u : Table K} (ht : Rows t) (hu : Rows u) (h : belowB t u = true) : Below t u := by
  obtain ⟨a, b, l, rfl⟩ := two_rows ht.2
  obtain ⟨c, d, m, rfl⟩ := two_rows hu.2
  intro x v w hv hw
  rw [interp_eq ht.1] at hv
  rw [interp_eq hu.1] at hw
  simp only [Val.ok.injEq] at hv hw
  subst hv; subst hw
  have h0 := belowB_fst rfl rfl h
  rw [← h0.1]
  by_cases hx : x < a.1
  · rw [if_pos hx, if_pos hx]; exact h0.2
  · rw [if_neg hx, if_neg hx]
    exact pl_le ht.1 hu.1 h (not_lt.mp hx)

/-- Adding rows that lie on the prolonged last segment changes nothing. -/
theorem line_collinear {a b r : K × K} (hab : a.1 < b.1) (hbr : b.1 < r.1) (hr : r.2 = line a b r.1) (x : K) :
    line b r x = line a b x := by
  have h1 : b.1 - a.1 ≠ 0 := sub_ne_zero.mpr hab.ne'
  have h2 : r.1 - b.1 ≠ 0 := sub_ne_zero.mpr hbr.ne'
  simp only [line] at hr ⊢
  rw [hr]
  field_simp
  ring

theorem pl_snoc {a b : K × K} {l : Table K} {r : K × K} (h : Incr (a :: b :: (l ++ [r])))
    (hr : r.2 = pl r.1 a (b :: l)) (x : K) : pl x a (b :: (l ++ [r])) = pl x a (b :: l) := by
  induction l generalizing a b with
  | nil =>
    simp only [List.nil_append, pl] at *
    have hbr : b.1 < r.1 := h.tail.head.1
    split
    · rfl
    · exact line_collinear h.head.1 hbr hr x
  | cons c l ih =>
    have hcr : b.1 < r.1 := ((List.pairwise_cons.mp h.tail).1 r (by simp)).1
    simp only [List.cons_append, pl] at *
    rw [if_neg (not_le.mpr hcr)] at hr
    split
    · rfl
    · exact ih h.tail hr

theorem interp_snoc {t : Table K} {r : K × K} (ht : Rows t) (h : Increasing (t ++ [r]))
    (hr : interp t r.1 = .ok r.2) (x : K) : interp (t ++ [r]) x = interp t x := by
  obtain ⟨a, b, l, rfl⟩ := two_rows ht.2
  have hI : Incr (a :: b :: (l ++ [r])) := h
  have har : ¬ r.1 < a.1 := not_lt.mpr ((List.pairwise_cons.mp hI).1 r (by simp)).1.le
  rw [interp_eq ht.1, if_neg har] at hr
  have e := pl_snoc hI (Val.ok.inj hr).symm x
  have : a :: b :: l ++ [r] = a :: b :: (l ++ [r]) := rfl
  rw [this, interp_eq hI, interp_eq ht.1, e]

/-- The table prolonged with rows at the given abscissas. -/
def prolong (t : Table K) : List K → Table K
  | [] => t
  | x :: xs =>
    match interp t x with
    | .ok v => prolong (t ++ [(x, v)]) xs
    | _ => t

theorem interp_prolong {t : Table K} (ht : Rows t) (xs : List K) (h : Increasing (prolong t xs)) (x : K) :
    interp (prolong t xs) x = interp t x := by
  induction xs generalizing t with
  | nil => rfl
  | cons y xs ih =>
    obtain ⟨v, hv⟩ := interp_total ht.1 ht.2 y
    have e : prolong t (y :: xs) = prolong (t ++ [(y, v)]) xs := by simp only [prolong, hv]
    rw [e] at h ⊢
    have hpre : ∀ (zs : List K) (s : Table K), ∃ m, prolong s zs = s ++ m := by
      intro zs
      induction zs with
      | nil => intro s; exact ⟨[], by simp [prolong]⟩
      | cons z zs ihz =>
        intro s
        simp only [prolong]
        split
        · rename_i w _
          obtain ⟨m, hm⟩ := ihz (s ++ [(z, w)])
          exact ⟨(z, w) :: m, by rw [hm]; simp⟩
        · exact ⟨[], by simp⟩
    obtain ⟨m, hm⟩ := hpre xs (t ++ [(y, v)])
    have hi : Increasing (t ++ [(y, v)]) := by
      rw [hm] at h
      exact (List.pairwise_append.mp h).1
    have hr : Rows (t ++ [(y, v)]) := ⟨hi, by rw [List.length_append]; have := ht.2; omega⟩
    rw [ih hr h, interp_snoc ht hi hv]

/-- A check of `Below` that first prolongs the shorter table to the length of the longer. -/
def belowExtB (t u : Table K) : Bool :=
  let t' := prolong t ((u.drop t.length).map Prod.fst)
  let u' := prolong u ((t.drop u.length).map Prod.fst)
  incrB t' && incrB u' && belowB t' u'

theorem length_prolong (zs : List K) (s : Table K) : s.length ≤ (prolong s zs).length := by
  induction zs generalizing s with
  | nil => simp [prolong]
  | cons z zs ih =>
    simp only [prolong]
    split
    · exact le_trans (by simp) (ih _)
    · exact le_refl _

theorem below_of_belowExtB {t u : Table K} (ht : Rows t) (hu : Rows u) (h : belowExtB t u = true) : Below t u := by
  simp only [belowExtB, Bool.and_eq_true] at h
  have hi : Increasing (prolong t ((u.drop t.length).map Prod.fst)) := incr_of_incrB h.1.1
  have hj : Increasing (prolong u ((t.drop u.length).map Prod.fst)) := incr_of_incrB h.1.2
  have hb := below_of_belowB ⟨hi, le_trans ht.2 (length_prolong _ _)⟩ ⟨hj, le_trans hu.2 (length_prolong _ _)⟩ h.2
  intro x v w hv hw
  exact hb x v w (by rw [interp_prolong ht _ hi]; exact hv) (by rw [interp_prolong hu _ hj]; exact hw)

/-- Rows before the one at or below the argument do not matter. -/
theorem interp_drop {l t : Table K} (h : Increasing (l ++ t)) (ht : 2 ≤ t.length) {x : K}
    (hx : ∀ r ∈ t.head?, r.1 ≤ x) : interp (l ++ t) x = interp t x := by
  obtain ⟨a, b, m, rfl⟩ := two_rows ht
  have hax : a.1 ≤ x := hx a (by simp)
  have hax : a.1 ≤ x := hx a (by simp)
  induction l with
  | nil => rfl
  | cons c l ih =>
    rw [← ih (List.pairwise_cons.mp h).2]
    cases l with
    | nil =>
      have hca : c.1 < a.1 := ((List.pairwise_cons.mp h).1 a (by simp)).1
      simp only [List.cons_append, List.nil_append] at h ⊢
      rw [interp_eq h, interp_eq (List.pairwise_cons.mp h).2, if_neg (not_lt.mpr (le_trans hca.le hax)),
        if_neg (not_lt.mpr hax)]
      simp only [pl]
      by_cases e : x ≤ a.1
      · have : x = a.1 := le_antisymm e hax
        rw [if_pos e, this, line_right hca]
        have hab := (Incr.head (List.pairwise_cons.mp h).2).1
        cases m with
        | nil => simp only [pl]; rw [line_left]
        | cons d m => simp only [pl]; rw [if_pos hab.le, line_left]
      · rw [if_neg e]
    | cons d l =>
      have hcd : c.1 < d.1 := ((List.pairwise_cons.mp h).1 d (by simp)).1
      have hda : d.1 < a.1 := ((List.pairwise_cons.mp (List.pairwise_cons.mp h).2).1 a (by simp)).1
      have hdx : ¬ x ≤ d.1 := not_le.mpr (lt_of_lt_of_le hda hax)
      cases l with
      | nil =>
        simp only [List.cons_append, List.nil_append] at h ⊢
        rw [interp_eq h, interp_eq (List.pairwise_cons.mp h).2,
          if_neg (not_lt.mpr (le_trans hcd.le (not_le.mp hdx).le)), if_neg (not_lt.mpr (not_le.mp hdx).le)]
        rw [pl, if_neg hdx]
      | cons e l =>
        simp only [List.cons_append, List.nil_append] at h ⊢
        rw [interp_eq h, interp_eq (List.pairwise_cons.mp h).2,
          if_neg (not_lt.mpr (le_trans hcd.le (not_le.mp hdx).le)), if_neg (not_lt.mpr (not_le.mp hdx).le)]
        rw [pl, if_neg hdx]

/-- At every row of the second step table the first answers with at most the value of the row, or has ended with
values no greater. -/
def stepBelowB (t u : Table K) : Bool :=
  u.all fun r => match lookupLe t r.1 with
    | some v => decide (v ≤ r.2)
    | none => t.all fun p => decide (p.2 ≤ r.2)

theorem stepBelow_of_B {t u : Table K} (ht : Increasing t) (h : stepBelowB t u = true) : StepBelow t u := by
  intro x v w hv hw
  obtain ⟨r, hr, rfl, hx⟩ := lookupLe_mem hw
  have := (List.all_eq_true.mp h) r hr
  cases hl : lookupLe t r.1 with
  | none =>
    simp only [hl, List.all_eq_true, decide_eq_true_eq] at this
    obtain ⟨p, hp, rfl, -⟩ := lookupLe_mem hv
    exact this p hp
  | some z =>
    simp only [hl, decide_eq_true_eq] at this
    exact le_trans (lookupLe_mono ht hx hv hl) this

theorem lookupLt_le_lookupLe {t : Table K} (ht : Increasing t) {x y v z : K} (hxy : x < y)
    (hv : lookupLt t x = some v) (hz : lookupLe t y = some z) : v ≤ z := by
  induction t with
  | nil => simp [lookupLt] at hv
  | cons a l ih =>
    simp only [lookupLt] at hv
    simp only [lookupLe] at hz
    by_cases h1 : x < a.1
    · rw [if_pos h1] at hv
      cases hv
      by_cases h2 : y ≤ a.1
      · rw [if_pos h2] at hz; cases hz; exact le_refl _
      · rw [if_neg h2] at hz
        obtain ⟨r, hr, rfl, -⟩ := lookupLe_mem hz
        exact ((List.pairwise_cons.mp ht).1 r hr).2
    · rw [if_neg h1] at hv
      rw [if_neg (not_le.mpr (lt_of_le_of_lt (not_lt.mp h1) hxy))] at hz
      exact ih (List.pairwise_cons.mp ht).2 hv hz

theorem stepBelowLt_of_B {t u : Table K} (ht : Increasing t) (h : stepBelowB t u = true) : StepBelowLt t u := by
  intro x v w hv hw
  obtain ⟨r, hr, rfl, hx⟩ := lookupLt_mem hw
  have := (List.all_eq_true.mp h) r hr
  cases hl : lookupLe t r.1 with
  | none =>
    simp only [hl, List.all_eq_true, decide_eq_true_eq] at this
    obtain ⟨p, hp, rfl, -⟩ := lookupLt_mem hv
    exact this p hp
  | some z =>
    simp only [hl, decide_eq_true_eq] at this
    exact le_trans (lookupLt_le_lookupLe ht hx hv hl) this

/-! ## Rounding -/

section
variable [FloorRing K]

theorem ceilFloat_mono {x y : K} (h : x ≤ y) (d : Nat) : ceilFloat x d ≤ ceilFloat y d := by
  unfold ceilFloat
  have hp : (0 : K) < 10 ^ d := by positivity
  apply div_le_div_of_nonneg_right _ hp.le
  exact_mod_cast Int.ceil_mono (mul_le_mul_of_nonneg_right h hp.le)

theorem ceilFloat_nonneg {x : K} (h : 0 ≤ x) (d : Nat) : 0 ≤ ceilFloat x d := le_trans h (ceilFloat_ge x d).1

/-- A number with at most `d` decimals is its own ceiling. -/
theorem ceilFloat_int (n : ℤ) (d : Nat) : ceilFloat ((n : K) / 10 ^ d) d = (n : K) / 10 ^ d := by
  unfold ceilFloat
  have hp : (10 ^ d : K) ≠ 0 := by positivity
  rw [div_mul_cancel₀ _ hp, Int.ceil_intCast]

theorem ceilFloat_idem (x : K) (d : Nat) : ceilFloat (ceilFloat x d) d = ceilFloat x d := ceilFloat_int _ d

theorem ceilClearance_mono {x y : K} (h : x ≤ y) : ceilClearance x ≤ ceilClearance y := by
  unfold ceilClearance
  by_cases h1 : y < 5 / 1000
  · rw [if_pos h1, if_pos (lt_of_le_of_lt h h1)]
    exact ceilFloat_mono h 5
  · rw [if_neg h1]
    by_cases h2 : x < 5 / 1000
    · rw [if_pos h2]
      have e : (5 / 1000 : K) = ((500 : ℤ) : K) / 10 ^ 5 := by norm_num
      calc ceilFloat x 5 ≤ ceilFloat (5 / 1000) 5 := ceilFloat_mono h2.le 5
        _ = 5 / 1000 := by rw [e, ceilFloat_int]
        _ ≤ y := not_lt.mp h1
        _ ≤ ceilFloat y 4 := (ceilFloat_ge y 4).1
    · rw [if_neg h2]
      exact ceilFloat_mono h 4

theorem ceilClearance_ge (x : K) : x ≤ ceilClearance x := by
  unfold ceilClearance
  split
  · exact (ceilFloat_ge x 5).1
  · exact (ceilFloat_ge x 4).1

end

/-! ## Frequency tables -/

/-- Two frequency tables with the same keys, all rows usable, the first below the second. -/
def FreqBelow : FreqTable K → FreqTable K → Prop :=
  List.Forall₂ fun a b => a.1 = b.1 ∧ Rows a.2 ∧ Rows b.2 ∧ Below a.2 b.2

/-- Strictly increasing keys above `prev`. -/
def Keys (prev : K) : FreqTable K → Prop
  | [] => True
  | a :: l => prev < a.1 ∧ Keys a.1 l

theorem lerp_le {a b c d t : K} (h0 : 0 ≤ t) (h1 : t ≤ 1) (hac : a ≤ c) (hbd : b ≤ d) : lerp a b t ≤ lerp c d t := by
  unfold lerp
  nlinarith [mul_nonneg h0 (sub_nonneg.mpr hbd), mul_nonneg (sub_nonneg.mpr h1) (sub_nonneg.mpr hac)]

theorem freqLoop_le {t u : FreqTable K} (h : FreqBelow t u) {prev : K} (hk : Keys prev t) {x y freq : K}
    (hxy : x ≤ y) {b c : Table K} (hbc : (b = [] ∧ c = []) ∨ (Rows b ∧ Rows c ∧ Below b c)) :
    (freqLoop x freq prev b t).Le (freqLoop y freq prev c u) := by
  induction h generalizing prev b c with
  | nil => exact Out.threw_le _
  | @cons p q t u hpq _ ih =>
    obtain ⟨hkey, hp, hq, hb⟩ := hpq
    obtain ⟨p1, p2⟩ := p
    obtain ⟨q1, q2⟩ := q
    simp only at hkey
    subst hkey
    simp only [freqLoop]
    split
    · rename_i hf
      apply Out.Le.bind
      intro v w hv hw
      have hvw := interp_le hp hb hxy v w hv hw
      rcases hbc with ⟨rfl, rfl⟩ | ⟨hb1, hc1, hbc⟩
      · simp only [if_true]
        exact Out.Le.ok hvw
      · have nb : b ≠ [] := by rintro rfl; simpa using hb1.2
        have nc : c ≠ [] := by rintro rfl; simpa using hc1.2
        rw [if_neg nb, if_neg nc]
        apply Out.Le.bind
        intro v' w' hv' hw'
        have h' := interp_le hb1 hbc hxy v' w' hv' hw'
        have hpos : 0 < p1 - prev := sub_pos.mpr hk.1
        rw [if_neg hpos.ne', if_neg hpos.ne']
        apply Out.Le.ok
        apply lerp_le _ _ h' hvw
        · exact div_nonneg (sub_nonneg.mpr hf.1) hpos.le
        · rw [div_le_one hpos]; linarith [hf.2]
    · exact ih hk.2 (Or.inr ⟨hp, hq, hb⟩)

theorem lastKey_eq {t u : FreqTable K} (h : FreqBelow t u) {a b : K × Table K} (hab : a.1 = b.1) :
    lastKey a t = lastKey b u := by
  induction h generalizing a b with
  | nil => exact hab
  | cons hpq _ ih => exact ih hpq.1

theorem overFreq_le {t u : FreqTable K} (h : FreqBelow t u) (hk : Keys lineFrequency t) {x y freq : K}
    (hxy : x ≤ y) : (overFreq t x freq).Le (overFreq u y freq) := by
  cases h with
  | nil => exact Out.threw_le _
  | cons hpq hr =>
    simp only [overFreq]
    rw [lastKey_eq hr hpq.1]
    exact freqLoop_le (List.Forall₂.cons hpq hr) hk hxy (Or.inl ⟨rfl, rfl⟩)

theorem freqLoop_ne_odd {t : FreqTable K} (h : ∀ r ∈ t, Rows r.2) {prev : K} (hk : Keys prev t) {x freq : K}
    {b : Table K} (hb : b = [] ∨ Rows b) : freqLoop x freq prev b t ≠ .odd := by
  induction t generalizing prev b with
  | nil => simp [freqLoop]
  | cons p t ih =>
    obtain ⟨p1, p2⟩ := p
    simp only [freqLoop]
    have hp := h (p1, p2) (by simp)
    split
    · obtain ⟨v, hv⟩ := interp_total hp.1 hp.2 x
      simp only at hv
      rw [hv]
      simp only [Out.ofVal, Out.bind]
      rcases hb with rfl | hb
      · simp
      · have nb : b ≠ [] := by rintro rfl; simpa using hb.2
        rw [if_neg nb]
        obtain ⟨w, hw⟩ := interp_total hb.1 hb.2 x
        rw [hw]
        simp only
        rw [if_neg (sub_pos.mpr hk.1).ne']
        simp
    · exact ih (fun r hr => h r (List.mem_cons_of_mem _ hr)) hk.2 (Or.inr hp)

theorem overFreq_ne_odd {t : FreqTable K} (h : ∀ r ∈ t, Rows r.2) (hk : Keys lineFrequency t) {x freq : K} :
    overFreq t x freq ≠ .odd := by
  cases t with
  | nil => simp [overFreq]
  | cons a l =>
    simp only [overFreq]
    exact freqLoop_ne_odd h hk (Or.inl rfl)

theorem freqLoop_ge {t : FreqTable K} {m : K} (h : ∀ r ∈ t, Rows r.2 ∧ ∀ p ∈ r.2, m ≤ p.2) {prev : K}
    (hk : Keys prev t) {x freq v : K} {b : Table K} (hb : b = [] ∨ (Rows b ∧ ∀ p ∈ b, m ≤ p.2))
    (hv : freqLoop x freq prev b t = .ok v) : m ≤ v := by
  induction t generalizing prev b with
  | nil => simp [freqLoop] at hv
  | cons p t ih =>
    obtain ⟨p1, p2⟩ := p
    simp only [freqLoop] at hv
    have hp := h (p1, p2) (by simp)
    split at hv
    · rename_i hf
      rw [Out.bind_eq_ok] at hv
      obtain ⟨top, ht, hv⟩ := hv
      rw [Out.ofVal_eq_ok] at ht
      have h1 := interp_ge_of_rows hp.1 hp.2 ht
      rcases hb with rfl | hb
      · simp only [if_true, Out.ok.injEq] at hv
        exact hv ▸ h1
      · have nb : b ≠ [] := by rintro rfl; simpa using hb.1.2
        rw [if_neg nb, Out.bind_eq_ok] at hv
        obtain ⟨bot, hbt, hv⟩ := hv
        rw [Out.ofVal_eq_ok] at hbt
        have h2 := interp_ge_of_rows hb.1 hb.2 hbt
        have hpos : 0 < p1 - prev := sub_pos.mpr hk.1
        rw [if_neg hpos.ne', Out.ok.injEq] at hv
        have e : m = lerp m m ((freq - prev) / (p1 - prev)) := by unfold lerp; ring
        rw [← hv, e]
        apply lerp_le _ _ h2 h1
        · exact div_nonneg (sub_nonneg.mpr hf.1) hpos.le
        · rw [div_le_one hpos]; linarith [hf.2]
    · exact ih (fun r hr => h r (List.mem_cons_of_mem _ hr)) hk.2 (Or.inr hp) hv

theorem overFreq_ge {t : FreqTable K} {m : K} (h : ∀ r ∈ t, Rows r.2 ∧ ∀ p ∈ r.2, m ≤ p.2)
    (hk : Keys lineFrequency t) {x freq v : K} (hv : overFreq t x freq = .ok v) : m ≤ v := by
  cases t with
  | nil => simp [overFreq] at hv
  | cons a l =>
    simp only [overFreq] at hv
    exact freqLoop_ge h hk (Or.inl rfl) hv

/-- Usable tables, each below the later ones. -/
def Chain18 (t : FreqTable K) : Prop :=
  (∀ r ∈ t, Rows r.2) ∧ t.Pairwise fun a b => a.1 < b.1 ∧ Below a.2 b.2

theorem loop18_ge {t : FreqTable K} (h : Chain18 t) {u : Table K} (hu : Rows u) (hb : ∀ r ∈ t, Below u r.2)
    {x y freq prev : K} (hxy : x ≤ y) : (Out.ofVal (interp u x)).Le (loop18 y freq prev t) := by
  induction t generalizing prev with
  | nil => exact Out.le_threw _
  | cons p t ih =>
    obtain ⟨p1, p2⟩ := p
    simp only [loop18]
    split
    · exact interp_le hu (hb (p1, p2) (by simp)) hxy
    · exact ih ⟨fun r hr => h.1 r (List.mem_cons_of_mem _ hr), (List.pairwise_cons.mp h.2).2⟩
        (fun r hr => hb r (List.mem_cons_of_mem _ hr))

/-- The table of a higher frequency is never below that of a lower one. -/
theorem loop18_le {t : FreqTable K} (h : Chain18 t) {x y f g prev : K} (hxy : x ≤ y) (hfg : f ≤ g) (hp : prev ≤ f) :
    (loop18 x f prev t).Le (loop18 y g prev t) := by
  induction t generalizing prev with
  | nil => exact Out.threw_le _
  | cons p t ih =>
    obtain ⟨p1, p2⟩ := p
    have hr := h.1 (p1, p2) (by simp)
    have htail : Chain18 t := ⟨fun r hr => h.1 r (List.mem_cons_of_mem _ hr), (List.pairwise_cons.mp h.2).2⟩
    simp only [loop18]
    by_cases h1 : (prev ≤ f ∧ f ≤ p1) ∨ p1 = 400000
    · rw [if_pos h1]
      by_cases h2 : (prev ≤ g ∧ g ≤ p1) ∨ p1 = 400000
      · rw [if_pos h2]
        exact interp_le hr (Below.refl _) hxy
      · rw [if_neg h2]
        exact loop18_ge htail hr (fun r hr' => ((List.pairwise_cons.mp h.2).1 r hr').2) hxy
    · push Not at h1
      have hpf := h1.1 hp
      rw [if_neg (by push Not; exact h1), if_neg (by push Not; exact ⟨fun _ => lt_of_lt_of_le hpf hfg, h1.2⟩)]
      exact ih htail hpf.le

end Verif.Standards
