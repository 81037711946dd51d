import Verif.Hysteresis.Model
import Mathlib.Tactic.FieldSimp
import Mathlib.Tactic.Linarith
import Mathlib.Tactic.LinearCombination
import Mathlib.Tactic.Positivity
import Mathlib.Tactic.Ring

/-! # Lemmas on the hysteresis loop -/

set_option linter.unusedSectionVars false
set_option linter.unusedSimpArgs false

namespace Verif.Hysteresis

variable {K : Type} [Field K] [LinearOrder K] [IsStrictOrderedRing K]

/-! ## The parameters -/

/-- The equations of the parameters. -/
structure Fitted (m : Material K) (p : Params K) : Prop where
  coercive : 0 < m.coercive
  field : m.coercive < m.field
  remanence : 0 < m.remanence
  flux : m.remanence < m.flux
  a1 : 0 < p.a1
  atZero : p.a1 + p.b1 * m.coercive = m.coercive / m.remanence
  atField : p.a1 + p.b1 * (m.field + m.coercive) = (m.field + m.coercive) / m.flux
  atMinus : p.a1 + p.b2 * (m.field - m.coercive) = (m.field - m.coercive) / m.flux

theorem majorLoop_fitted (m : Material K) (h1 : 0 < m.coercive) (h2 : m.coercive < m.field) (h3 : 0 < m.remanence) (h4 : m.remanence < m.flux) :
    ∃ p, majorLoop m = some p ∧ Fitted m p := by
  have hB : 0 < m.flux := h3.trans h4
  have hH : 0 < m.field := h1.trans h2
  unfold majorLoop
  rw [if_neg (by
    rintro (h | h | h | h)
    · exact hB.ne' h
    · exact h3.ne' h
    · exact hH.ne' h
    · exact h2.ne h)]
  refine ⟨_, rfl, ⟨h1, h2, h3, h4, ?_, ?_, ?_, ?_⟩⟩
  · have e : (m.coercive - m.remanence * ((m.field / m.flux + m.coercive / m.flux - 0 / m.remanence - m.coercive / m.remanence) /
        (m.field - 0)) * m.coercive) / m.remanence =
        m.coercive * (m.field + m.coercive) * (m.flux - m.remanence) / (m.field * m.remanence * m.flux) := by
      field_simp
      ring
    show 0 < _
    rw [e]
    have := sub_pos.2 h4
    positivity
  · show _ = _
    field_simp
    ring
  · show _ = _
    field_simp
    ring
  · show _ = _
    have hn : -m.field + m.coercive < 0 := by linarith
    rw [abs_of_neg hn]
    have hd : m.field - m.coercive ≠ 0 := by linarith [sub_pos.2 h2]
    have : -(-m.field + m.coercive) = m.field - m.coercive := by ring
    rw [this]
    field_simp
    ring

theorem Fitted.hH {m : Material K} {p : Params K} (f : Fitted m p) : 0 < m.field := f.coercive.trans f.field
theorem Fitted.hB {m : Material K} {p : Params K} (f : Fitted m p) : 0 < m.flux := f.remanence.trans f.flux

/-- A linear function that is positive at both ends of a segment is positive within. -/
theorem linear_pos (a b X x : K) (ha : 0 < a) (hX : 0 < a + b * X) (h0 : 0 ≤ x) (h1 : x ≤ X) : 0 < a + b * x := by
  rcases le_or_gt 0 b with hb | hb
  · have := mul_nonneg hb h0
    linarith
  · have := mul_le_mul_of_nonpos_left h1 hb.le
    linarith

theorem Fitted.right_pos {m : Material K} {p : Params K} (f : Fitted m p) {x : K} (h0 : 0 ≤ x) (h1 : x ≤ m.field + m.coercive) :
    0 < p.a1 + p.b1 * x := by
  refine linear_pos _ _ (m.field + m.coercive) x f.a1 ?_ h0 h1
  rw [f.atField]
  have := f.hH
  have := f.hB
  have := f.coercive
  positivity

theorem Fitted.left_pos {m : Material K} {p : Params K} (f : Fitted m p) {x : K} (h0 : 0 ≤ x) (h1 : x ≤ m.field - m.coercive) :
    0 < p.a1 + p.b2 * x := by
  refine linear_pos _ _ (m.field - m.coercive) x f.a1 ?_ h0 h1
  rw [f.atMinus]
  have := f.hB
  have := sub_pos.2 f.field
  positivity

theorem upper_right (m : Material K) (p : Params K) {h : K} (hh : -m.coercive ≤ h) :
    upper m p h = (h + m.coercive) / (p.a1 + p.b1 * (h + m.coercive)) := by
  unfold upper slopeOf
  rw [if_neg (not_lt.2 hh), abs_of_nonneg (by linarith)]

theorem upper_left (m : Material K) (p : Params K) {h : K} (hh : h < -m.coercive) :
    upper m p h = -((-h - m.coercive) / (p.a1 + p.b2 * (-h - m.coercive))) := by
  unfold upper slopeOf
  rw [if_pos hh, abs_of_neg (by linarith), show -(h + m.coercive) = -h - m.coercive by ring, ← neg_div]
  congr 1
  ring

/-- The lower path is the upper one turned around the origin. -/
theorem lower_eq (m : Material K) (p : Params K) (h : K) : lower m p h = -upper m p (-h) := by
  unfold lower upper slopeOf
  rcases lt_trichotomy h m.coercive with c | c | c
  · rw [if_pos c, if_neg (by linarith)]
  · subst c
    rw [if_neg (lt_irrefl _), if_neg (lt_irrefl _)]
    simp
  · rw [if_neg (not_lt.2 c.le), if_pos (by linarith)]

/-- A fraction over a linear function rises. -/
theorem frac_lt (a b x y : K) (ha : 0 < a) (hx : 0 < a + b * x) (hy : 0 < a + b * y) (h : x < y) : x / (a + b * x) < y / (a + b * y) := by
  rw [div_lt_div_iff₀ hx hy]
  have := mul_lt_mul_of_pos_left h ha
  linarith [show x * (a + b * y) = a * x + b * x * y by ring, show y * (a + b * x) = a * y + b * x * y by ring]

theorem Fitted.upper_lt {m : Material K} {p : Params K} (f : Fitted m p) {x y : K} (hx : -m.field ≤ x) (hy : y ≤ m.field) (h : x < y) :
    upper m p x < upper m p y := by
  have hHc := f.coercive
  rcases le_or_gt (-m.coercive) x with cx | cx
  · rw [upper_right m p cx, upper_right m p (cx.trans h.le)]
    exact frac_lt _ _ _ _ f.a1 (f.right_pos (by linarith) (by linarith)) (f.right_pos (by linarith) (by linarith)) (by linarith)
  · rcases le_or_gt (-m.coercive) y with cy | cy
    · rw [upper_left m p cx, upper_right m p cy]
      have h1 : 0 < (-x - m.coercive) / (p.a1 + p.b2 * (-x - m.coercive)) :=
        div_pos (by linarith) (f.left_pos (by linarith) (by linarith))
      have h2 : 0 ≤ (y + m.coercive) / (p.a1 + p.b1 * (y + m.coercive)) :=
        div_nonneg (by linarith) (f.right_pos (by linarith) (by linarith)).le
      linarith
    · rw [upper_left m p cx, upper_left m p cy]
      exact neg_lt_neg (frac_lt _ _ _ _ f.a1 (f.left_pos (by linarith) (by linarith)) (f.left_pos (by linarith) (by linarith)) (by linarith))

theorem Fitted.lower_lt {m : Material K} {p : Params K} (f : Fitted m p) {x y : K} (hx : -m.field ≤ x) (hy : y ≤ m.field) (h : x < y) :
    lower m p x < lower m p y := by
  rw [lower_eq, lower_eq]
  exact neg_lt_neg (f.upper_lt (by linarith) (by linarith) (by linarith))

theorem Fitted.upper_field {m : Material K} {p : Params K} (f : Fitted m p) : upper m p m.field = m.flux := by
  have h1 := f.hH
  have h2 := f.coercive
  have h3 := f.hB
  rw [upper_right m p (by linarith), f.atField]
  have : m.field + m.coercive ≠ 0 := by positivity
  field_simp

theorem Fitted.upper_minus {m : Material K} {p : Params K} (f : Fitted m p) : upper m p (-m.field) = -m.flux := by
  have h2 := sub_pos.2 f.field
  have h3 := f.hB
  rw [upper_left m p (by linarith), neg_neg, f.atMinus]
  have : m.field - m.coercive ≠ 0 := h2.ne'
  field_simp

theorem Fitted.upper_zero {m : Material K} {p : Params K} (f : Fitted m p) : upper m p 0 = m.remanence := by
  have h2 := f.coercive
  have h3 := f.remanence
  rw [upper_right m p (by linarith), zero_add, f.atZero]
  field_simp

theorem upper_coercive (m : Material K) (p : Params K) : upper m p (-m.coercive) = 0 := by
  unfold upper
  simp

/-- How the parameters of the two sides differ. -/
theorem Fitted.b2_sub {m : Material K} {p : Params K} (f : Fitted m p) :
    (p.b1 - p.b2) * (m.field ^ 2 - m.coercive ^ 2) = 2 * p.a1 * m.coercive := by
  have e1 : (m.field - m.coercive) * (p.a1 + p.b1 * (m.field + m.coercive)) =
      (m.field + m.coercive) * (p.a1 + p.b2 * (m.field - m.coercive)) := by
    rw [f.atField, f.atMinus]
    ring
  linear_combination e1

theorem Fitted.b2_lt {m : Material K} {p : Params K} (f : Fitted m p) : p.b2 < p.b1 := by
  have h1 := f.b2_sub
  have h2 : 0 < m.field ^ 2 - m.coercive ^ 2 := by
    have := f.coercive
    have := f.field
    have : 0 < (m.field - m.coercive) * (m.field + m.coercive) := mul_pos (by linarith) (by linarith)
    linarith [show (m.field - m.coercive) * (m.field + m.coercive) = m.field ^ 2 - m.coercive ^ 2 by ring]
  have h3 : 0 < 2 * p.a1 * m.coercive := by
    have := f.a1
    have := f.coercive
    positivity
  by_contra hn
  have : (p.b1 - p.b2) * (m.field ^ 2 - m.coercive ^ 2) ≤ 0 := mul_nonpos_of_nonpos_of_nonneg (by linarith) h2.le
  linarith

/-- The upper path is not below the lower one, from zero on. -/
theorem Fitted.gap_nonneg_right {m : Material K} {p : Params K} (f : Fitted m p) {h : K} (h0 : 0 ≤ h) (h1 : h ≤ m.field) :
    0 ≤ upper m p h + upper m p (-h) := by
  have hc := f.coercive
  have hf := f.field
  rcases le_or_gt h m.coercive with c | c
  · rw [upper_right m p (by linarith), upper_right m p (by linarith)]
    exact add_nonneg (div_nonneg (by linarith) (f.right_pos (by linarith) (by linarith)).le)
      (div_nonneg (by linarith) (f.right_pos (by linarith) (by linarith)).le)
  · rw [upper_right m p (by linarith), upper_left m p (by linarith), neg_neg, ← sub_eq_add_neg, sub_nonneg,
      div_le_div_iff₀ (f.left_pos (by linarith) (by linarith)) (f.right_pos (by linarith) (by linarith))]
    have e := f.b2_sub
    have hb : 0 ≤ p.b1 - p.b2 := sub_nonneg.2 f.b2_lt.le
    have : (p.b1 - p.b2) * (h ^ 2 - m.coercive ^ 2) ≤ (p.b1 - p.b2) * (m.field ^ 2 - m.coercive ^ 2) := by
      apply mul_le_mul_of_nonneg_left _ hb
      have : h ^ 2 ≤ m.field ^ 2 := by
        apply pow_le_pow_left₀ h0 h1
      linarith
    nlinarith

theorem Fitted.gap_nonneg {m : Material K} {p : Params K} (f : Fitted m p) {h : K} (h0 : -m.field ≤ h) (h1 : h ≤ m.field) :
    0 ≤ upper m p h - lower m p h := by
  rw [lower_eq, sub_neg_eq_add]
  rcases le_or_gt 0 h with c | c
  · exact f.gap_nonneg_right c h1
  · have := f.gap_nonneg_right (h := -h) (by linarith) (by linarith)
    rw [neg_neg] at this
    linarith

/-- With a parameter that is not negative, the distance between the paths never grows away from zero. -/
theorem Fitted.gap_le_right {m : Material K} {p : Params K} (f : Fitted m p) (hb : 0 ≤ p.b1) {x y : K} (h0 : 0 ≤ x) (h : x ≤ y)
    (h1 : y ≤ m.field) : upper m p y + upper m p (-y) ≤ upper m p x + upper m p (-x) := by
  have hc := f.coercive
  have hf := f.field
  -- below the coercive force
  have low : ∀ {x y : K}, 0 ≤ x → x ≤ y → y ≤ m.coercive → upper m p y + upper m p (-y) ≤ upper m p x + upper m p (-x) := by
    intro x y h0 h hy
    rw [upper_right m p (by linarith), upper_right m p (by linarith), upper_right m p (by linarith), upper_right m p (by linarith)]
    have d1 := f.right_pos (x := y + m.coercive) (by linarith) (by linarith)
    have d2 := f.right_pos (x := x + m.coercive) (by linarith) (by linarith)
    have d3 := f.right_pos (x := -y + m.coercive) (by linarith) (by linarith)
    have d4 := f.right_pos (x := -x + m.coercive) (by linarith) (by linarith)
    have e1 : (y + m.coercive) / (p.a1 + p.b1 * (y + m.coercive)) - (x + m.coercive) / (p.a1 + p.b1 * (x + m.coercive)) =
        p.a1 * (y - x) / ((p.a1 + p.b1 * (y + m.coercive)) * (p.a1 + p.b1 * (x + m.coercive))) := by
      rw [div_sub_div _ _ d1.ne' d2.ne']
      congr 1
      ring
    have e2 : (-x + m.coercive) / (p.a1 + p.b1 * (-x + m.coercive)) - (-y + m.coercive) / (p.a1 + p.b1 * (-y + m.coercive)) =
        p.a1 * (y - x) / ((p.a1 + p.b1 * (-x + m.coercive)) * (p.a1 + p.b1 * (-y + m.coercive))) := by
      rw [div_sub_div _ _ d4.ne' d3.ne']
      congr 1
      ring
    have le : p.a1 * (y - x) / ((p.a1 + p.b1 * (y + m.coercive)) * (p.a1 + p.b1 * (x + m.coercive))) ≤
        p.a1 * (y - x) / ((p.a1 + p.b1 * (-x + m.coercive)) * (p.a1 + p.b1 * (-y + m.coercive))) := by
      apply div_le_div_of_nonneg_left (mul_nonneg f.a1.le (by linarith)) (mul_pos d4 d3)
      apply mul_le_mul _ _ d3.le d1.le
      · have := mul_le_mul_of_nonneg_left (show -x + m.coercive ≤ y + m.coercive by linarith) hb
        linarith
      · have := mul_le_mul_of_nonneg_left (show -y + m.coercive ≤ x + m.coercive by linarith) hb
        linarith
    linarith
  have high : ∀ {x y : K}, m.coercive ≤ x → x ≤ y → y ≤ m.field → upper m p y + upper m p (-y) ≤ upper m p x + upper m p (-x) := by
    intro x y h0 h hy
    have left : ∀ {z : K}, m.coercive ≤ z → upper m p (-z) = -((z - m.coercive) / (p.a1 + p.b2 * (z - m.coercive))) := by
      intro z hz
      rcases hz.eq_or_lt with e | e
      · subst e
        rw [upper_coercive]
        simp
      · rw [upper_left m p (by linarith), neg_neg]
    rw [left h0, left (h0.trans h), upper_right m p (by linarith), upper_right m p (by linarith)]
    have d1 := f.right_pos (x := y + m.coercive) (by linarith) (by linarith)
    have d2 := f.right_pos (x := x + m.coercive) (by linarith) (by linarith)
    have d3 := f.left_pos (x := y - m.coercive) (by linarith) (by linarith)
    have d4 := f.left_pos (x := x - m.coercive) (by linarith) (by linarith)
    have e1 : (y + m.coercive) / (p.a1 + p.b1 * (y + m.coercive)) - (x + m.coercive) / (p.a1 + p.b1 * (x + m.coercive)) =
        p.a1 * (y - x) / ((p.a1 + p.b1 * (y + m.coercive)) * (p.a1 + p.b1 * (x + m.coercive))) := by
      rw [div_sub_div _ _ d1.ne' d2.ne']
      congr 1
      ring
    have e2 : (y - m.coercive) / (p.a1 + p.b2 * (y - m.coercive)) - (x - m.coercive) / (p.a1 + p.b2 * (x - m.coercive)) =
        p.a1 * (y - x) / ((p.a1 + p.b2 * (y - m.coercive)) * (p.a1 + p.b2 * (x - m.coercive))) := by
      rw [div_sub_div _ _ d3.ne' d4.ne']
      congr 1
      ring
    have side : ∀ {z : K}, m.coercive ≤ z → p.a1 + p.b2 * (z - m.coercive) ≤ p.a1 + p.b1 * (z + m.coercive) := by
      intro z hz
      have h1 := mul_le_mul_of_nonneg_right f.b2_lt.le (sub_nonneg.2 hz)
      have h2 := mul_le_mul_of_nonneg_left (show z - m.coercive ≤ z + m.coercive by linarith) hb
      linarith
    have le : p.a1 * (y - x) / ((p.a1 + p.b1 * (y + m.coercive)) * (p.a1 + p.b1 * (x + m.coercive))) ≤
        p.a1 * (y - x) / ((p.a1 + p.b2 * (y - m.coercive)) * (p.a1 + p.b2 * (x - m.coercive))) := by
      apply div_le_div_of_nonneg_left (mul_nonneg f.a1.le (by linarith)) (mul_pos d3 d4)
      exact mul_le_mul (side (h0.trans h)) (side h0) d4.le d1.le
    linarith
  rcases le_or_gt y m.coercive with cy | cy
  · exact low h0 h cy
  · rcases le_or_gt x m.coercive with cx | cx
    · exact (high le_rfl cy.le h1).trans (low h0 cx le_rfl)
    · exact high cx.le h h1

theorem Fitted.gap_le {m : Material K} {p : Params K} (f : Fitted m p) (hb : 0 ≤ p.b1) {x y : K} (h : |x| ≤ y) (h1 : y ≤ m.field) :
    upper m p y - lower m p y ≤ upper m p x - lower m p x := by
  rw [lower_eq, lower_eq, sub_neg_eq_add, sub_neg_eq_add]
  rcases le_or_gt 0 x with c | c
  · rw [abs_of_nonneg c] at h
    exact f.gap_le_right hb c h h1
  · rw [abs_of_neg c] at h
    have := f.gap_le_right hb (x := -x) (by linarith) h h1
    rw [neg_neg] at this
    linarith

theorem Fitted.isNumber {m : Material K} {p : Params K} (f : Fitted m p) {h : K} (h0 : -m.field ≤ h) (h1 : h ≤ m.field) :
    isNumber m p h = true := by
  have hc := f.coercive
  have hf := f.field
  unfold Verif.Hysteresis.isNumber slopeOf
  rw [Bool.and_eq_true, decide_eq_true_iff, decide_eq_true_iff]
  constructor
  · split_ifs with c
    · rw [abs_of_neg (by linarith)]
      exact (f.left_pos (by linarith) (by linarith)).ne'
    · rw [abs_of_nonneg (by linarith)]
      exact (f.right_pos (by linarith) (by linarith)).ne'
  · split_ifs with c
    · rw [abs_of_pos (by linarith)]
      exact (f.right_pos (by linarith) (by linarith)).ne'
    · rw [abs_of_nonpos (by linarith)]
      exact (f.left_pos (by linarith) (by linarith)).ne'

/-! ## The field strengths -/

theorem close_pos : (0 : K) < close := by unfold close; positivity

theorem uniqueFrom_sub (a : K) (l : List K) : ∀ x ∈ uniqueFrom a l, x ∈ l := by
  induction l generalizing a with
  | nil => simp [uniqueFrom]
  | cons b l ih =>
    intro x hx
    unfold uniqueFrom at hx
    split_ifs at hx with c
    · exact List.mem_cons_of_mem _ (ih a x hx)
    · rcases List.mem_cons.1 hx with e | e
      · exact e ▸ List.mem_cons_self
      · exact List.mem_cons_of_mem _ (ih b x e)

theorem uniqueFrom_sorted (a : K) (l : List K) (h : (a :: l).Pairwise (· ≤ ·)) :
    (a :: uniqueFrom a l).Pairwise (fun x y => x + close ≤ y) := by
  induction l generalizing a with
  | nil => simp [uniqueFrom]
  | cons b l ih =>
    have hab : a ≤ b := (List.pairwise_cons.1 h).1 b List.mem_cons_self
    have hbl : (b :: l).Pairwise (· ≤ ·) := (List.pairwise_cons.1 h).2
    have hal : (a :: l).Pairwise (· ≤ ·) :=
      List.pairwise_cons.2 ⟨fun x hx => (List.pairwise_cons.1 h).1 x (List.mem_cons_of_mem _ hx), (List.pairwise_cons.1 hbl).2⟩
    unfold uniqueFrom
    split_ifs with c
    · exact ih a hal
    · have hb := ih b hbl
      refine List.pairwise_cons.2 ⟨?_, hb⟩
      have far : a + close ≤ b := by
        rw [abs_sub_comm, abs_of_nonneg (by linarith)] at c
        linarith
      intro x hx
      rcases List.mem_cons.1 hx with e | e
      · exact e ▸ far
      · have := (List.pairwise_cons.1 hb).1 x e
        linarith [close_pos (K := K)]

theorem uniqueFrom_covers (a : K) (l : List K) (h : (a :: l).Pairwise (· ≤ ·)) :
    ∀ r ∈ a :: l, ∃ k ∈ a :: uniqueFrom a l, k ≤ r ∧ r < k + close := by
  induction l generalizing a with
  | nil =>
    intro r hr
    rw [List.mem_singleton] at hr
    exact ⟨a, List.mem_cons_self, hr.ge, by linarith [close_pos (K := K)]⟩
  | cons b l ih =>
    have hab : a ≤ b := (List.pairwise_cons.1 h).1 b List.mem_cons_self
    have hbl : (b :: l).Pairwise (· ≤ ·) := (List.pairwise_cons.1 h).2
    have hal : (a :: l).Pairwise (· ≤ ·) :=
      List.pairwise_cons.2 ⟨fun x hx => (List.pairwise_cons.1 h).1 x (List.mem_cons_of_mem _ hx), (List.pairwise_cons.1 hbl).2⟩
    intro r hr
    unfold uniqueFrom
    split_ifs with c
    · rcases List.mem_cons.1 hr with e | e
      · exact ⟨a, List.mem_cons_self, e.ge, by linarith [close_pos (K := K)]⟩
      · rcases List.mem_cons.1 e with e | e
        · refine ⟨a, List.mem_cons_self, e ▸ hab, ?_⟩
          rw [abs_sub_comm, abs_of_nonneg (by linarith)] at c
          rw [e]
          linarith
        · exact ih a hal r (List.mem_cons_of_mem _ e)
    · rcases List.mem_cons.1 hr with e | e
      · exact ⟨a, List.mem_cons_self, e.ge, by linarith [close_pos (K := K)]⟩
      · obtain ⟨k, hk, h1, h2⟩ := ih b hbl r e
        exact ⟨k, List.mem_cons_of_mem _ hk, h1, h2⟩

theorem sort_ne_nil (m : Material K) (h : Option K) : (rawPoints m h).insertionSort (· ≤ ·) ≠ [] := by
  intro e
  have : (-m.field) ∈ (rawPoints m h).insertionSort (· ≤ ·) := by
    rw [List.mem_insertionSort]
    simp [rawPoints, fixedPoints]
  rw [e] at this
  exact absurd this (List.not_mem_nil)

/-- The field strengths, in terms of what is before sorting. -/
theorem points_spec (m : Material K) (h : Option K) :
    (points m h).Pairwise (· < ·) ∧ (∀ x ∈ points m h, x ∈ rawPoints m h) ∧
      ∀ r ∈ rawPoints m h, ∃ k ∈ points m h, k ≤ r ∧ r < k + close := by
  unfold points
  have hmem : ∀ x, x ∈ (rawPoints m h).insertionSort (· ≤ ·) ↔ x ∈ rawPoints m h := fun x => List.mem_insertionSort _
  have hs : ((rawPoints m h).insertionSort (· ≤ ·)).Pairwise (· ≤ ·) := List.pairwise_insertionSort _ _
  have hn := sort_ne_nil m h
  cases hl : (rawPoints m h).insertionSort (· ≤ ·) with
  | nil => exact absurd hl hn
  | cons a l =>
    rw [hl] at hs hmem
    have hu := uniqueFrom_sorted a l hs
    have hlt : (a :: uniqueFrom a l).Pairwise (· < ·) := hu.imp fun {x y} hxy => by linarith [close_pos (K := K)]
    have hf : a ≤ -m.field := by
      have : -m.field ∈ a :: l := (hmem _).2 (by simp [rawPoints, fixedPoints])
      rcases List.mem_cons.1 this with e | e
      · exact e.ge
      · exact (List.pairwise_cons.1 hs).1 _ e
    have hsub : ∀ x ∈ a :: uniqueFrom a l, x ∈ rawPoints m h := by
      intro x hx
      apply (hmem x).1
      rcases List.mem_cons.1 hx with e | e
      · exact e ▸ List.mem_cons_self
      · exact List.mem_cons_of_mem _ (uniqueFrom_sub a l x e)
    have hcov := uniqueFrom_covers a l hs
    have e1 : boundedBelow m.field (unique (a :: l)) = a :: uniqueFrom a l := by
      unfold boundedBelow unique
      rw [if_neg (by simpa using hf)]
    rw [e1]
    unfold boundedAbove
    split_ifs with c
    · refine ⟨?_, ?_, ?_⟩
      · rw [List.pairwise_append]
        refine ⟨hlt, List.pairwise_singleton _ _, ?_⟩
        intro x hx y hy
        rw [List.mem_singleton] at hy
        rw [hy]
        rw [List.getLast?_eq_getLast_of_ne_nil (by simp), Option.any_some, decide_eq_true_iff] at c
        refine lt_of_le_of_lt ?_ c
        have hle : (a :: uniqueFrom a l).Pairwise (· ≤ ·) := hlt.imp le_of_lt
        exact hle.rel_getLast (ha := hx)
      · intro x hx
        rcases List.mem_append.1 hx with e | e
        · exact hsub x e
        · rw [List.mem_singleton] at e
          rw [e]
          simp [rawPoints, fixedPoints]
      · intro r hr
        obtain ⟨k, hk, h1⟩ := hcov r ((hmem r).2 hr)
        exact ⟨k, List.mem_append_left _ hk, h1⟩
    · exact ⟨hlt, hsub, fun r hr => hcov r ((hmem r).2 hr)⟩

/-- A field strength with none just below stays. -/
theorem mem_points (m : Material K) (h : Option K) {r : K} (hr : r ∈ rawPoints m h) (hi : ∀ r' ∈ rawPoints m h, r' < r → r' + close ≤ r) :
    r ∈ points m h := by
  obtain ⟨_, hs, hc⟩ := points_spec m h
  obtain ⟨k, hk, h1, h2⟩ := hc r hr
  rcases h1.eq_or_lt with e | e
  · exact e ▸ hk
  · have := hi k (hs k hk) e
    linarith

theorem raw_bound (m : Material K) {h s : K} (hc : 0 ≤ m.coercive) (hf : m.coercive ≤ m.field) (h1 : m.field ≤ s) (h2 : h ≤ s) :
    ∀ x ∈ rawPoints m (some h), -s ≤ x ∧ x ≤ s := by
  intro x hx
  have hfix : ∀ x ∈ fixedPoints m, -s ≤ x ∧ x ≤ s := by
    intro x hx
    simp only [fixedPoints, List.mem_cons, List.not_mem_nil, or_false] at hx
    rcases hx with e | e | e | e | e | e | e | e | e <;> subst e <;> constructor <;> linarith
  have hp : ∀ x ∈ peakPoints h, -s ≤ x ∧ x ≤ s := by
    intro x hx
    unfold peakPoints at hx
    split_ifs at hx with c
    · simp only [List.mem_cons, List.not_mem_nil, or_false] at hx
      rcases hx with e | e | e | e | e | e | e | e | e | e | e | e | e | e <;> subst e <;> constructor <;> linarith
    · exact absurd hx List.not_mem_nil
  rcases List.mem_append.1 hx with e | e
  · exact hfix x e
  · exact hp x e

theorem raw_bound_none (m : Material K) (hc : 0 ≤ m.coercive) (hf : m.coercive ≤ m.field) :
    ∀ x ∈ rawPoints m none, -m.field ≤ x ∧ x ≤ m.field := by
  intro x hx
  refine raw_bound m hc hf le_rfl (h := 0) (hc.trans hf) x ?_
  simpa [rawPoints, peakPoints] using hx

theorem nearest_mem (h : K) (b : K) (l : List K) : nearest h b l ∈ b :: l := by
  induction l generalizing b with
  | nil => simp [nearest]
  | cons x l ih =>
    unfold nearest
    have := ih (if |x - h| < |b - h| then x else b)
    rcases List.mem_cons.1 this with e | e
    · split_ifs at e ⊢ with c
      · simp [e]
      · simp [e]
    · exact List.mem_cons_of_mem _ (List.mem_cons_of_mem _ e)

theorem nearest_le (h : K) (b : K) (l : List K) : ∀ x ∈ b :: l, |nearest h b l - h| ≤ |x - h| := by
  induction l generalizing b with
  | nil =>
    intro x hx
    rw [List.mem_singleton] at hx
    rw [hx]
    exact le_rfl
  | cons y l ih =>
    intro x hx
    unfold nearest
    have key := ih (if |y - h| < |b - h| then y else b)
    have first := key _ List.mem_cons_self
    rcases List.mem_cons.1 hx with e | e
    · subst e
      refine first.trans ?_
      split_ifs with c
      · exact c.le
      · exact le_rfl
    · rcases List.mem_cons.1 e with e | e
      · subst e
        refine first.trans ?_
        split_ifs with c
        · exact le_rfl
        · exact not_lt.1 c
      · exact key x (List.mem_cons_of_mem _ e)

theorem nearest_self (h : K) (hs : List K) (hm : h ∈ hs) : nearest h (hs.headD 0) hs.tail = h := by
  cases hs with
  | nil => exact absurd hm List.not_mem_nil
  | cons a l =>
    have := nearest_le h a l h hm
    rw [sub_self, abs_zero] at this
    exact sub_eq_zero.1 (abs_eq_zero.1 (le_antisymm this (abs_nonneg _)))

end Verif.Hysteresis
