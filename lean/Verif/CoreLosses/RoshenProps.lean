import Mathlib.Tactic.LinearCombination
import Mathlib.Tactic.FieldSimp
import Mathlib.Tactic.Linarith
import Mathlib.Tactic.Positivity
import Mathlib.Tactic.NormNum
import Verif.CoreLosses.Roshen
import Verif.CoreLosses.WaveProps

/-!
# Properties of core losses by Roshen's model (C162, C163)
-/

set_option linter.unusedSimpArgs false
set_option linter.unusedSectionVars false

namespace Verif.CoreLosses

section
variable {K : Type} [Field K] [LinearOrder K] [IsStrictOrderedRing K]

/-! ## The major loop (C162) -/

/-- What is known of a magnetic material: the coercive force is less than the field of saturation, and the remanence less than the
flux density of saturation. -/
def Magnetic (hs bs hc br : K) : Prop := 0 < hc ∧ hc < hs ∧ 0 < br ∧ br < bs

/-- What its loop satisfies. -/
structure Fits (l : Loop K) (hs bs hc br : K) : Prop where
  coercive : l.coercive = hc
  pos : 0 < l.a
  top : l.a + l.b1 * (hs + hc) = (hs + hc) / bs
  rest : l.a + l.b1 * hc = hc / br
  bottom : l.a + l.b2 * (hs - hc) = (hs - hc) / bs

theorem fits {hs bs hc br : K} (h : Magnetic hs bs hc br) : ∃ l, loopOf hs bs hc br = some l ∧ Fits l hs bs hc br := by
  obtain ⟨h1, h2, h3, h4⟩ := h
  have hbs : 0 < bs := lt_trans h3 h4
  have hhs : 0 < hs := lt_trans h1 h2
  have hd : 0 < hs - hc := sub_pos.mpr h2
  have habs : |-hs + hc| = hs - hc := by rw [abs_of_neg (by linarith)]; ring
  unfold loopOf
  rw [if_neg (by rintro (h | h | h | h) <;> simp_all)]
  refine ⟨_, rfl, rfl, ?_, ?_, ?_, ?_⟩
  · have : (hc - br * ((hs / bs + hc / bs - 0 / br - hc / br) / (hs - 0)) * hc) / br = hc * (hs + hc) * (bs - br) / (br * bs * hs) := by
      simp only [sub_zero, zero_div]
      field_simp
      ring
    simp only [this]
    have := sub_pos.mpr h4
    positivity
  · simp only [sub_zero, zero_div]
    field_simp
    ring
  · simp only [sub_zero, zero_div]
    field_simp
    ring
  · simp only [habs]
    field_simp
    ring

theorem den_pos {a b x c top : K} (ha : 0 < a) (h : a + b * top = c) (hc : 0 < c) (hx : 0 ≤ x) (hxt : x ≤ top) (ht : 0 < top) :
    0 < a + b * x := by
  have : top * (a + b * x) = a * (top - x) + x * c := by rw [← h]; ring
  rcases hxt.lt_or_eq with hlt | rfl
  · have h1 : 0 < a * (top - x) := mul_pos ha (sub_pos.mpr hlt)
    have h2 : 0 ≤ x * c := mul_nonneg hx hc.le
    exact pos_of_mul_pos_right (by rw [this]; linarith) ht.le
  · rw [h]; exact hc

theorem quotient_lt {a b x y : K} (ha : 0 < a) (hx : 0 < a + b * x) (hy : 0 < a + b * y) : x / (a + b * x) < y / (a + b * y) ↔ x < y := by
  rw [div_lt_div_iff₀ hx hy]
  constructor
  · intro h
    have : a * x < a * y := by nlinarith
    exact lt_of_mul_lt_mul_left this ha.le
  · intro h
    have : a * x < a * y := mul_lt_mul_of_pos_left h ha
    nlinarith

section
variable {l : Loop K} {hs bs hc br : K}

theorem Fits.den1 (m : Magnetic hs bs hc br) (f : Fits l hs bs hc br) {x : K} (h0 : 0 ≤ x) (h1 : x ≤ hs + hc) : 0 < l.a + l.b1 * x := by
  obtain ⟨g1, g2, g3, g4⟩ := m
  have : 0 < hs + hc := by linarith
  exact den_pos f.pos f.top (div_pos this (lt_trans g3 g4)) h0 h1 this

theorem Fits.den2 (m : Magnetic hs bs hc br) (f : Fits l hs bs hc br) {u : K} (h0 : 0 ≤ u) (h1 : u ≤ hs - hc) : 0 < l.a + l.b2 * u := by
  obtain ⟨g1, g2, g3, g4⟩ := m
  have : 0 < hs - hc := by linarith
  exact den_pos f.pos f.bottom (div_pos this (lt_trans g3 g4)) h0 h1 this

theorem Fits.right (m : Magnetic hs bs hc br) (f : Fits l hs bs hc br) {x : K} (h0 : 0 ≤ x) (h1 : x ≤ hs + hc) :
    upper l (x - hc) = some (x / (l.a + l.b1 * x)) := by
  have hd := f.den1 m h0 h1
  unfold upper halfLoop
  rw [f.coercive, if_neg (by linarith), sub_add_cancel, abs_of_nonneg h0, if_neg hd.ne']

theorem Fits.left (m : Magnetic hs bs hc br) (f : Fits l hs bs hc br) {u : K} (h0 : 0 ≤ u) (h1 : u ≤ hs - hc) :
    upper l (-hc - u) = some (-(u / (l.a + l.b2 * u))) := by
  rcases h0.lt_or_eq with h0 | rfl
  · have hd := f.den2 m h0.le h1
    unfold upper halfLoop
    have e : -hc - u + hc = -u := by ring
    rw [f.coercive, if_pos (by linarith), e, abs_neg, abs_of_pos h0, if_neg hd.ne', neg_div]
  · have h := f.right m (x := 0) le_rfl (by obtain ⟨g1, g2, _⟩ := m; linarith)
    simp only [sub_zero, zero_div, neg_zero, mul_zero] at h ⊢
    rw [← h]
    simp

end

/-- C162: both branches are one reflected on the origin. -/
theorem loop_symmetric (l : Loop K) (field : K) : lower l field = (upper l (-field)).map fun x => -x := by
  unfold lower upper
  congr 1
  by_cases h : field < l.coercive
  · rw [if_pos h, if_neg (by linarith)]
  · rw [if_neg h]
    by_cases h' : -field < -l.coercive
    · rw [if_pos h']
    · have : field = l.coercive := le_antisymm (by linarith) (not_lt.mp h)
      rw [if_neg h', this]
      simp [halfLoop]

/-- C162: the upper branch goes through saturation, upwards and downwards, through the remanence without field, and through the
coercive force. -/
theorem loop_points {hs bs hc br : K} (m : Magnetic hs bs hc br) : ∃ l, loopOf hs bs hc br = some l ∧
    upper l hs = some bs ∧ upper l 0 = some br ∧ upper l (-hc) = some 0 ∧ upper l (-hs) = some (-bs) := by
  obtain ⟨l, hl, f⟩ := fits m
  obtain ⟨g1, g2, g3, g4⟩ := id m
  have hbs : 0 < bs := lt_trans g3 g4
  refine ⟨l, hl, ?_, ?_, ?_, ?_⟩
  · have h := f.right m (x := hs + hc) (by linarith) le_rfl
    rw [f.top, add_sub_cancel_right] at h
    rw [h]
    congr 1
    have : hs + hc ≠ 0 := by linarith
    field_simp
  · have h := f.right m (x := hc) g1.le (by linarith)
    rw [f.rest, sub_self] at h
    rw [h]
    congr 1
    field_simp
  · have h := f.right m (x := 0) le_rfl (by linarith)
    simpa using h
  · have h := f.left m (u := hs - hc) (by linarith) le_rfl
    rw [f.bottom, show -hc - (hs - hc) = -hs by ring] at h
    rw [h]
    congr 1
    have : hs - hc ≠ 0 := by linarith
    field_simp

/-- C162: it grows with the field, all the way between both saturations. -/
theorem loop_increasing {hs bs hc br : K} (m : Magnetic hs bs hc br) {l : Loop K} (hl : loopOf hs bs hc br = some l) (g h : K)
    (hg : |g| ≤ hs) (hh : |h| ≤ hs) : ∃ x y, upper l g = some x ∧ upper l h = some y ∧ (x < y ↔ g < h) := by
  obtain ⟨l', hl', f⟩ := fits m
  rw [hl] at hl'; simp at hl'; subst hl'
  obtain ⟨g1, g2⟩ := abs_le.mp hg
  obtain ⟨h1, h2⟩ := abs_le.mp hh
  obtain ⟨m1, m2, m3, m4⟩ := id m
  have right : ∀ z, -hc ≤ z → z ≤ hs → upper l z = some ((z + hc) / (l.a + l.b1 * (z + hc))) ∧ 0 < l.a + l.b1 * (z + hc) := by
    intro z hz1 hz2
    have := f.right m (x := z + hc) (by linarith) (by linarith)
    rw [add_sub_cancel_right] at this
    exact ⟨this, f.den1 m (by linarith) (by linarith)⟩
  have left : ∀ z, z < -hc → -hs ≤ z → upper l z = some (-((-hc - z) / (l.a + l.b2 * (-hc - z)))) ∧ 0 < l.a + l.b2 * (-hc - z) := by
    intro z hz1 hz2
    have := f.left m (u := -hc - z) (by linarith) (by linarith)
    rw [show -hc - (-hc - z) = z by ring] at this
    exact ⟨this, f.den2 m (by linarith) (by linarith)⟩
  rcases lt_or_ge g (-hc) with hgc | hgc
  · obtain ⟨e1, d1⟩ := left g hgc g1
    rcases lt_or_ge h (-hc) with hhc | hhc
    · obtain ⟨e2, d2⟩ := left h hhc h1
      refine ⟨_, _, e1, e2, ?_⟩
      rw [neg_lt_neg_iff, quotient_lt f.pos d2 d1]
      constructor <;> intro <;> linarith
    · obtain ⟨e2, d2⟩ := right h hhc h2
      refine ⟨_, _, e1, e2, ?_⟩
      have p1 : 0 < (-hc - g) / (l.a + l.b2 * (-hc - g)) := div_pos (by linarith) d1
      have p2 : 0 ≤ (h + hc) / (l.a + l.b1 * (h + hc)) := div_nonneg (by linarith) d2.le
      constructor <;> intro <;> linarith
  · obtain ⟨e1, d1⟩ := right g hgc g2
    rcases lt_or_ge h (-hc) with hhc | hhc
    · obtain ⟨e2, d2⟩ := left h hhc h1
      refine ⟨_, _, e1, e2, ?_⟩
      have p1 : 0 < (-hc - h) / (l.a + l.b2 * (-hc - h)) := div_pos (by linarith) d2
      have p2 : 0 ≤ (g + hc) / (l.a + l.b1 * (g + hc)) := div_nonneg (by linarith) d1.le
      constructor <;> intro <;> linarith
    · obtain ⟨e2, d2⟩ := right h hhc h2
      refine ⟨_, _, e1, e2, ?_⟩
      rw [quotient_lt f.pos d1 d2]
      constructor <;> intro <;> linarith

/-- C162: the upper branch is above the lower one between both saturations, where they meet. -/
theorem loop_encloses {hs bs hc br : K} (m : Magnetic hs bs hc br) {l : Loop K} (hl : loopOf hs bs hc br = some l) (h : K)
    (hh : |h| ≤ hs) : ∃ x y, upper l h = some x ∧ lower l h = some y ∧ y ≤ x ∧ (|h| < hs → y < x) ∧ (|h| = hs → y = x) := by
  obtain ⟨l', hl', f⟩ := fits m
  rw [hl] at hl'; simp at hl'; subst hl'
  obtain ⟨m1, m2, m3, m4⟩ := id m
  have hbs : 0 < bs := lt_trans m3 m4
  have key : ∀ t, 0 ≤ t → t ≤ hs → ∃ x y, upper l t = some x ∧ upper l (-t) = some y ∧ 0 ≤ x + y ∧ (t < hs → 0 < x + y) ∧
      (t = hs → x + y = 0) := by
    intro t ht0 hths
    have e1 := f.right m (x := t + hc) (by linarith) (by linarith)
    have d1 := f.den1 m (x := t + hc) (by linarith) (by linarith)
    rw [add_sub_cancel_right] at e1
    rcases le_or_gt t hc with ht | ht
    · have e2 := f.right m (x := hc - t) (by linarith) (by linarith)
      have d2 := f.den1 m (x := hc - t) (by linarith) (by linarith)
      rw [show hc - t - hc = -t by ring] at e2
      have p1 : 0 < (t + hc) / (l.a + l.b1 * (t + hc)) := div_pos (by linarith) d1
      have p2 : 0 ≤ (hc - t) / (l.a + l.b1 * (hc - t)) := div_nonneg (by linarith) d2.le
      exact ⟨_, _, e1, e2, by linarith, fun _ => by linarith, fun h => by linarith⟩
    · have e2 := f.left m (u := t - hc) (by linarith) (by linarith)
      have d2 := f.den2 m (u := t - hc) (by linarith) (by linarith)
      rw [show -hc - (t - hc) = -t by ring] at e2
      refine ⟨_, _, e1, e2, ?_⟩
      have hrel : (hs + hc) * (l.a + l.b2 * (hs - hc)) = (hs - hc) * (l.a + l.b1 * (hs + hc)) := by
        rw [f.bottom, f.top]; ring
      have hsq : 0 < hs ^ 2 - hc ^ 2 := by nlinarith
      have hsum : (t + hc) / (l.a + l.b1 * (t + hc)) + -((t - hc) / (l.a + l.b2 * (t - hc))) =
          2 * l.a * hc * (hs ^ 2 - t ^ 2) / ((hs ^ 2 - hc ^ 2) * ((l.a + l.b1 * (t + hc)) * (l.a + l.b2 * (t - hc)))) := by
        rw [eq_div_iff (mul_pos hsq (mul_pos d1 d2)).ne', ← sub_eq_add_neg, div_sub_div _ _ d1.ne' d2.ne',
          div_mul_eq_mul_div, div_eq_iff (mul_pos d1 d2).ne']
        linear_combination (t ^ 2 - hc ^ 2) * (l.a + l.b1 * (t + hc)) * (l.a + l.b2 * (t - hc)) * hrel
      have hden : 0 < (hs ^ 2 - hc ^ 2) * ((l.a + l.b1 * (t + hc)) * (l.a + l.b2 * (t - hc))) := mul_pos hsq (mul_pos d1 d2)
      have ha := f.pos
      rw [hsum]
      refine ⟨div_nonneg (mul_nonneg (by positivity) (by nlinarith)) hden.le,
        fun h => div_pos (mul_pos (by positivity) (by nlinarith)) hden, fun h => ?_⟩
      rw [h, sub_self, mul_zero, zero_div]
  rw [loop_symmetric]
  rcases le_total 0 h with h0 | h0
  · rw [abs_of_nonneg h0] at hh ⊢
    obtain ⟨x, y, e1, e2, k1, k2, k3⟩ := key h h0 hh
    refine ⟨x, -y, e1, by rw [e2]; rfl, by linarith, fun h => by linarith [k2 h], fun h => by linarith [k3 h]⟩
  · rw [abs_of_nonpos h0] at hh ⊢
    obtain ⟨x, y, e1, e2, k1, k2, k3⟩ := key (-h) (by linarith) hh
    rw [neg_neg] at e2
    refine ⟨y, -x, e2, by rw [e1]; rfl, by linarith, fun h => by linarith [k2 h], fun h => by linarith [k3 h]⟩

example : Magnetic (20 : ℚ) (2 / 5) 1 (1 / 10) := by unfold Magnetic; norm_num
example : loopOf (20 : ℚ) (2 / 5) 1 (1 / 10) = some ⟨1, 63 / 8, 17 / 8, 317 / 152⟩ := by decide +kernel

/-! ## The minor loop (C162) -/

/-- What is left of the quadratic equation. -/
def last (l : Loop K) (peak : K) : K := 2 * l.a * l.coercive - 2 * peak * l.a * (l.a + 2 * l.b1 * l.coercive)

theorem discriminant_eq (l : Loop K) (peak : K) : discriminant l peak = middle l peak ^ 2 - leading l peak * last l peak := by
  unfold discriminant middle leading last
  ring

theorem quadratic (l : Loop K) (peak u : K) (h1 : l.a + l.b2 * u ≠ 0) (h2 : l.a + l.b1 * (2 * l.coercive + u) ≠ 0) :
    leading l peak * u ^ 2 - 2 * middle l peak * u + last l peak =
      (l.a + l.b2 * u) * (l.a + l.b1 * (2 * l.coercive + u)) *
        (u / (l.a + l.b2 * u) + (2 * l.coercive + u) / (l.a + l.b1 * (2 * l.coercive + u)) - 2 * peak) := by
  unfold middle leading last
  field_simp
  ring

/-- The square root is right at the discriminant. -/
def Right (rt : K → K) (x : K) : Prop := 0 ≤ x → 0 ≤ rt x ∧ rt x ^ 2 = x

theorem rootOf_root (rt : K → K) (l : Loop K) (peak : K) (hr : rt (discriminant l peak) ^ 2 = discriminant l peak)
    (hc : leading l peak ≠ 0) :
    leading l peak * rootOf rt l peak ^ 2 - 2 * middle l peak * rootOf rt l peak + last l peak = 0 := by
  rw [discriminant_eq] at hr
  have h : ∀ r : K, r ^ 2 = middle l peak ^ 2 - leading l peak * last l peak →
      leading l peak * ((middle l peak + r) / leading l peak) ^ 2 - 2 * middle l peak * ((middle l peak + r) / leading l peak) +
        last l peak = 0 := by
    intro r hr
    field_simp
    linear_combination hr
  unfold rootOf
  rw [discriminant_eq]
  split_ifs
  · have := h (-rt (middle l peak ^ 2 - leading l peak * last l peak)) (by rw [neg_sq]; exact hr)
    rwa [← sub_eq_add_neg] at this
  · exact h _ hr

theorem root_within (rt : K → K) (l : Loop K) (peak top : K) (hr : Right rt (discriminant l peak)) (hc : leading l peak ≠ 0)
    (he : last l peak < 0) (ht : 0 < top) (hq : 0 ≤ leading l peak * top ^ 2 - 2 * middle l peak * top + last l peak) :
    0 ≤ discriminant l peak ∧ 0 < rootOf rt l peak ∧ rootOf rt l peak ≤ top := by
  set A := middle l peak with hA
  set C := leading l peak with hC
  set E := last l peak with hE
  have hD : discriminant l peak = A ^ 2 - C * E := discriminant_eq l peak
  have hsq : (C * top - A) ^ 2 = discriminant l peak + C * (C * top ^ 2 - 2 * A * top + E) := by rw [hD]; ring
  have hD0 : 0 ≤ discriminant l peak := by
    rcases lt_or_gt_of_ne hc with h | h
    · have : C * (C * top ^ 2 - 2 * A * top + E) ≤ 0 := mul_nonpos_of_nonpos_of_nonneg h.le hq
      have h2 := sq_nonneg (C * top - A)
      linarith
    · have : C * E ≤ 0 := mul_nonpos_of_nonneg_of_nonpos h.le he.le
      have h2 := sq_nonneg A
      linarith
  obtain ⟨r0, r2⟩ := hr hD0
  set r := rt (discriminant l peak) with hrr
  have main : 0 < (A + r) / C ∧ (A + r) / C ≤ top := by
    rcases lt_or_gt_of_ne hc with h | h
    · have hCE : 0 < C * E := mul_pos_of_neg_of_neg h he
      have h1 : (C * top - A) ^ 2 ≤ r ^ 2 := by
        have : C * (C * top ^ 2 - 2 * A * top + E) ≤ 0 := mul_nonpos_of_nonpos_of_nonneg h.le hq
        rw [r2]; linarith
      obtain ⟨h2, h3⟩ := abs_le_of_sq_le_sq' h1 r0
      have hCt : C * top < 0 := mul_neg_of_neg_of_pos h ht
      have h4 : r ^ 2 < A ^ 2 := by rw [r2, hD]; linarith
      have h5 : A < 0 := by
        by_contra hneg
        have := abs_lt_of_sq_lt_sq h4 (not_lt.mp hneg)
        rw [abs_of_nonneg r0] at this
        linarith
      have h6 : r < -A := by
        have := abs_lt_of_sq_lt_sq (a := r) (b := -A) (by rw [neg_sq]; exact h4) (by linarith)
        rwa [abs_of_nonneg r0] at this
      exact ⟨div_pos_of_neg_of_neg (by linarith) h, (div_le_iff_of_neg h).mpr (by linarith)⟩
    · have hCE : C * E < 0 := mul_neg_of_pos_of_neg h he
      have h4 : A ^ 2 < r ^ 2 := by rw [r2, hD]; linarith
      obtain ⟨h5, h6⟩ := abs_lt.mp (abs_lt_of_sq_lt_sq h4 r0)
      refine ⟨div_pos (by linarith) h, (div_le_iff₀ h).mpr ?_⟩
      by_contra hlt
      have hlt := not_le.mp hlt
      have hCt : 0 < C * top := mul_pos h ht
      have h7 : (C * top - A) ^ 2 < r ^ 2 := by
        apply sq_lt_sq' <;> linarith
      have : 0 ≤ C * (C * top ^ 2 - 2 * A * top + E) := mul_nonneg h.le hq
      rw [r2] at h7
      linarith
  refine ⟨hD0, ?_⟩
  unfold rootOf
  rw [if_neg (not_le.mpr main.1)]
  exact main

/-- C162: a swing above half of the upper branch at the coercive force, and up to saturation, has a minor loop: both branches, moved
towards each other by the same amount, meet at the peaks of the swing. -/
theorem tips_meet_partial {rt : K → K} {hs bs hc br : K} (m : Magnetic hs bs hc br) {l : Loop K} (hl : loopOf hs bs hc br = some l)
    {peak at0 : K} (h0 : upper l hc = some at0) (hp : at0 / 2 < peak) (hpb : peak ≤ bs) (hc0 : leading l peak ≠ 0)
    (hr : Right rt (discriminant l peak)) :
    ∃ tip d, hc < tip ∧ tip ≤ hs ∧ 0 ≤ d ∧ delta rt l peak = some d ∧
      upper l tip = some (peak + d) ∧ lower l tip = some (peak - d) ∧ upper l (-tip) = some (-peak + d) ∧ lower l (-tip) = some (-peak - d) := by
  obtain ⟨l', hl', f⟩ := fits m
  rw [hl] at hl'; simp at hl'; subst hl'
  obtain ⟨m1, m2, m3, m4⟩ := id m
  have hbs : 0 < bs := lt_trans m3 m4
  have hco := f.coercive
  have ha := f.pos
  have d0 := f.den1 m (x := 2 * hc) (by linarith) (by linarith)
  have hat : at0 = 2 * hc / (l.a + l.b1 * (2 * hc)) := by
    have := f.right m (x := 2 * hc) (by linarith) (by linarith)
    rw [show 2 * hc - hc = hc by ring, h0] at this
    simpa using this
  have he : last l peak < 0 := by
    unfold last
    rw [hco]
    have : hc < peak * (l.a + l.b1 * (2 * hc)) := by
      rw [hat, div_div, div_lt_iff₀ (by positivity)] at hp
      linarith
    have := mul_lt_mul_of_pos_left this ha
    linarith
  have hU1 := f.den2 m (u := hs - hc) (by linarith) le_rfl
  have hU2 := f.den1 m (x := hs + hc) (by linarith) le_rfl
  have hq : 0 ≤ leading l peak * (hs - hc) ^ 2 - 2 * middle l peak * (hs - hc) + last l peak := by
    have e : 2 * l.coercive + (hs - hc) = hs + hc := by rw [hco]; ring
    rw [quadratic l peak (hs - hc) hU1.ne' (by rw [e]; exact hU2.ne'), e]
    refine mul_nonneg (mul_pos hU1 hU2).le ?_
    rw [f.bottom, f.top]
    have h1 : (hs - hc) / ((hs - hc) / bs) = bs := by
      have : hs - hc ≠ 0 := by linarith
      field_simp
    have h2 : (hs + hc) / ((hs + hc) / bs) = bs := by
      have : hs + hc ≠ 0 := by linarith
      field_simp
    rw [h1, h2]
    linarith
  obtain ⟨hD, hu0, hu1⟩ := root_within rt l peak (hs - hc) hr hc0 he (by linarith) hq
  have hroot := rootOf_root rt l peak (hr hD).2 hc0
  have k1 : delta rt l peak = if l.a + l.b2 * rootOf rt l peak = 0 ∨ l.a + l.b1 * (2 * l.coercive + rootOf rt l peak) = 0 then none
      else some ((-rootOf rt l peak / (l.a + l.b2 * rootOf rt l peak) -
        -(2 * l.coercive + rootOf rt l peak) / (l.a + l.b1 * (2 * l.coercive + rootOf rt l peak))) / 2) := by
    unfold delta
    rw [if_neg (not_lt.mpr hD), if_neg hc0, if_neg (not_le.mpr hu0)]
  set u := rootOf rt l peak with hu
  rw [hco] at k1
  have d1 := f.den2 m hu0.le hu1
  have d2 := f.den1 m (x := 2 * hc + u) (by linarith) (by linarith)
  rw [quadratic l peak u d1.ne' (by rw [hco]; exact d2.ne'), hco] at hroot
  have hsum : u / (l.a + l.b2 * u) + (2 * hc + u) / (l.a + l.b1 * (2 * hc + u)) - 2 * peak = 0 := by
    rcases mul_eq_zero.mp hroot with h | h
    · exact absurd h (mul_pos d1 d2).ne'
    · exact h
  rw [if_neg (by rintro (h | h); exacts [d1.ne' h, d2.ne' h])] at k1
  have e1 := f.right m (x := 2 * hc + u) (by linarith) (by linarith)
  rw [show 2 * hc + u - hc = hc + u by ring] at e1
  have e2 := f.left m hu0.le hu1
  rw [show -hc - u = -(hc + u) by ring] at e2
  obtain ⟨x, y, g1, g2, g3, -, -⟩ := loop_encloses m hl (hc + u) (by rw [abs_of_pos (by linarith)]; linarith)
  rw [e1] at g1
  have g2' := g2
  rw [loop_symmetric, e2] at g2'
  simp only [Option.map_some, Option.some.injEq, neg_neg] at g1 g2'
  refine ⟨hc + u, _, by linarith, by linarith, ?_, k1, ?_, ?_, ?_, ?_⟩
  · rw [neg_div, neg_div]; linarith
  · rw [e1, neg_div, neg_div]; congr 1; linarith
  · rw [g2, ← g2', neg_div, neg_div]; congr 1; linarith
  · rw [e2, neg_div, neg_div]; congr 1; linarith
  · rw [loop_symmetric, neg_neg, e1, neg_div, neg_div]; simp only [Option.map_some]; congr 1; linarith

theorem kept_filter (peak : K) (g : K → Option K) (v : K → K) (p : K → Prop) [DecidablePred p] (l : List K)
    (h : ∀ x ∈ l, g x = some (v x) ∧ ((v x ≤ peak ∧ -peak ≤ v x) ↔ p x)) :
    kept peak (l.map g) = (l.filter fun x => decide (p x)).map v := by
  induction l with
  | nil => rfl
  | cons x l ih =>
    obtain ⟨h1, h2⟩ := h x (by simp)
    have ih := ih fun y hy => h y (by simp [hy])
    unfold kept at ih ⊢
    rw [List.map_cons, List.filterMap_cons, h1]
    simp only [Option.bind_some]
    by_cases hp : p x
    · rw [if_pos (h2.mpr hp), List.filter_cons_of_pos (by simpa using hp), List.map_cons, ih]
    · rw [if_neg (fun h => hp (h2.mp h)), List.filter_cons_of_neg (by simpa using hp), ih]

theorem zipWith_maps {α : Type} (g : K → K → K) (v w : α → K) (l : List α) :
    List.zipWith g (l.map v) (l.map w) = l.map fun x => g (v x) (w x) := by
  induction l with
  | nil => rfl
  | cons x l ih => simp [ih]

section
variable [FloorRing K]

/-- The height of the major loop at a field. -/
def gap (l : Loop K) (field : K) : K :=
  match upper l field, lower l field with
  | some x, some y => x - y
  | _, _ => 0

theorem mem_fields {step hs x : K} (hst : 0 < step) (hhs : 0 ≤ hs) (h : x ∈ fields step hs) : |x| ≤ hs := by
  unfold fields at h
  rw [if_neg (not_lt.mpr hhs)] at h
  obtain ⟨i, hi, rfl⟩ := List.mem_map.mp h
  have hi := List.mem_range.mp hi
  have h0 : (0 : K) ≤ 2 * hs / step := by positivity
  have hf : 0 ≤ ⌊2 * hs / step⌋ := Int.floor_nonneg.mpr h0
  have h1 : (i : ℤ) ≤ ⌊2 * hs / step⌋ := by omega
  have h2 : ((i : ℤ) : K) ≤ 2 * hs / step := Int.le_floor.mp h1
  rw [Int.cast_natCast, le_div_iff₀ hst] at h2
  have h3 : (0 : K) ≤ (i : K) * step := by positivity
  rw [abs_le]
  constructor <;> linarith

/-- C162: the losses by hysteresis of such a swing are the frequency times the area of the minor loop: the sum, over the fields between
its two tips, of its height times the step of the field. -/
theorem hysteresis_area_partial {rt : K → K} {step f hs bs hc br : K} (hst : 0 < step) (m : Magnetic hs bs hc br) {l : Loop K}
    (hl : loopOf hs bs hc br = some l) {peak at0 : K} (h0 : upper l hc = some at0) (hp : at0 / 2 < peak) (hpb : peak ≤ bs)
    (hc0 : leading l peak ≠ 0) (hr : Right rt (discriminant l peak)) :
    ∃ tip d, upper l tip = some (peak + d) ∧ lower l (-tip) = some (-peak - d) ∧ hc < tip ∧ tip ≤ hs ∧ 0 ≤ d ∧
      hysteresis rt step hs bs hc br f peak =
        .ok ((((fields step hs).filter fun h => decide (|h| ≤ tip)).map fun h => |gap l h - 2 * d| * step).sum * f) := by
  obtain ⟨tip, d, t1, t2, hd, hdel, u1, u2, u3, u4⟩ := tips_meet_partial m hl h0 hp hpb hc0 hr
  refine ⟨tip, d, u1, u4, t1, t2, hd, ?_⟩
  have hhs : 0 < hs := lt_trans m.1 m.2.1
  have htip : |tip| ≤ hs := by rw [abs_of_pos (lt_trans m.1 t1)]; exact t2
  have hntip : |-tip| ≤ hs := by rw [abs_neg]; exact htip
  have hup : ∀ h, |h| ≤ hs → ∃ x, upper l h = some x ∧ ((x - d ≤ peak ∧ -peak ≤ x - d) ↔ |h| ≤ tip) := by
    intro h hh
    obtain ⟨x, y, e1, e2, e3⟩ := loop_increasing m hl tip h htip hh
    obtain ⟨x', y', e1', e2', e3'⟩ := loop_increasing m hl h (-tip) hh hntip
    rw [u1] at e1; rw [u3] at e2'
    rw [e2] at e1'
    simp only [Option.some.injEq] at e1 e2' e1'
    refine ⟨y, e2, ?_⟩
    have k1 := not_congr e3
    have k2 := not_congr e3'
    rw [not_lt, not_lt] at k1 k2
    rw [abs_le, ← k1, ← k2, ← e1, ← e2', ← e1']
    constructor
    · rintro ⟨h1, h2⟩; exact ⟨by linarith, by linarith⟩
    · rintro ⟨h1, h2⟩; exact ⟨by linarith, by linarith⟩
  have hlo : ∀ h, |h| ≤ hs → ∃ y, lower l h = some y ∧ ((y + d ≤ peak ∧ -peak ≤ y + d) ↔ |h| ≤ tip) := by
    intro h hh
    obtain ⟨x, e1, e2⟩ := hup (-h) (by rw [abs_neg]; exact hh)
    refine ⟨-x, by rw [loop_symmetric, e1]; rfl, ?_⟩
    rw [abs_neg] at e2
    rw [← e2]
    constructor
    · rintro ⟨h1, h2⟩; exact ⟨by linarith, by linarith⟩
    · rintro ⟨h1, h2⟩; exact ⟨by linarith, by linarith⟩
  unfold hysteresis
  rw [hl]
  simp only [Res.ok.injEq]
  congr 2
  unfold bhLoop
  rw [hdel]
  simp only
  rw [kept_filter peak _ (fun h => (upper l h).getD 0 - d) (fun h => |h| ≤ tip),
    kept_filter peak (fun h => (lower l h).map fun x => x + d) (fun h => (lower l h).getD 0 + d) (fun h => |h| ≤ tip), zipWith_maps]
  · refine List.map_congr_left fun h hh => ?_
    have hm := mem_fields hst hhs.le (List.mem_filter.mp hh).1
    obtain ⟨x, e1, _⟩ := hup h hm
    obtain ⟨y, e2, _⟩ := hlo h hm
    unfold gap
    rw [e1, e2]
    simp only [Option.getD_some]
    congr 2
    ring
  · intro h hh
    obtain ⟨y, e2, e3⟩ := hlo h (mem_fields hst hhs.le hh)
    rw [e2]
    exact ⟨rfl, e3⟩
  · intro h hh
    obtain ⟨x, e1, e3⟩ := hup h (mem_fields hst hhs.le hh)
    rw [e1]
    exact ⟨rfl, e3⟩

/-- C162: they are never negative. -/
theorem hysteresis_nonneg {rt : K → K} {step hs bs hc br f peak x : K} (hst : 0 ≤ step) (hf : 0 ≤ f)
    (h : hysteresis rt step hs bs hc br f peak = .ok x) : 0 ≤ x := by
  unfold hysteresis at h
  cases hl : loopOf hs bs hc br with
  | none => rw [hl] at h; simp at h
  | some l =>
    rw [hl] at h
    simp only [Res.ok.injEq] at h
    rw [← h]
    refine mul_nonneg (List.sum_nonneg fun y hy => ?_) hf
    obtain ⟨i, hi, rfl⟩ := List.getElem_of_mem hy
    rw [List.getElem_zipWith]
    positivity

end

/-- C162: a smaller swing has none, if the branches bend towards saturation: they are not moved, and are cut at different fields. -/
theorem small_swing_unmoved {rt : K → K} {hs bs hc br : K} (m : Magnetic hs bs hc br) {l : Loop K} (hl : loopOf hs bs hc br = some l)
    (h1 : 0 < l.b1) (h2 : 0 < l.b2) {peak at0 : K} (h0 : upper l hc = some at0) (hp : peak < at0 / 2) (hpos : 0 < peak)
    (hr : Right rt (discriminant l peak)) : delta rt l peak = some 0 := by
  obtain ⟨l', hl', f⟩ := fits m
  rw [hl] at hl'; simp at hl'; subst hl'
  obtain ⟨m1, m2, m3, m4⟩ := id m
  have hco := f.coercive
  have ha := f.pos
  have hat : at0 = 2 * hc / (l.a + l.b1 * (2 * hc)) := by
    have := f.right m (x := 2 * hc) (by linarith) (by linarith)
    rw [show 2 * hc - hc = hc by ring, h0] at this
    simpa using this
  have hlt : peak * (l.a + l.b1 * (2 * hc)) < hc := by
    rw [hat, div_div, lt_div_iff₀ (by positivity)] at hp
    linarith
  have hC : 0 < leading l peak := by
    unfold leading
    have : peak * l.b1 * 2 < 1 := by
      by_contra hn
      have hn := not_lt.mp hn
      have : hc ≤ peak * (l.b1 * (2 * hc)) := by nlinarith
      have : 0 < peak * l.a := mul_pos hpos ha
      nlinarith
    nlinarith
  unfold delta
  by_cases hD : discriminant l peak < 0
  · rw [if_pos hD]
  · rw [if_neg hD, if_neg hC.ne', if_pos]
    by_contra hu
    have hu := not_le.mp hu
    have hroot := rootOf_root rt l peak (hr (not_lt.mp hD)).2 hC.ne'
    set u := rootOf rt l peak
    have d1 : 0 < l.a + l.b2 * u := by positivity
    have d2 : 0 < l.a + l.b1 * (2 * hc + u) := by positivity
    rw [quadratic l peak u d1.ne' (by rw [hco]; exact d2.ne'), hco] at hroot
    have hsum : u / (l.a + l.b2 * u) + (2 * hc + u) / (l.a + l.b1 * (2 * hc + u)) - 2 * peak = 0 := by
      rcases mul_eq_zero.mp hroot with h | h
      · exact absurd h (mul_pos d1 d2).ne'
      · exact h
    have h3 : 0 < u / (l.a + l.b2 * u) := div_pos hu d1
    have h4 : at0 < (2 * hc + u) / (l.a + l.b1 * (2 * hc + u)) := by
      rw [hat, quotient_lt ha (by positivity) d2]
      linarith
    linarith

end

/-- A square root of numbers that are squares of others. -/
def OfSquares (rt : ℚ → ℚ) : Prop := ∀ x, 0 ≤ x → rt (x * x) = x

/-- The loop of a material saturated by 20 A/m at 0.4 T, with a coercive force of 1 A/m and a remanence of 0.1 T. -/
def softLoop : Loop ℚ := ⟨1, 63 / 8, 17 / 8, 317 / 152⟩

theorem softLoop_eq : loopOf (20 : ℚ) (2 / 5) 1 (1 / 10) = some softLoop := by decide +kernel

theorem soft_small (rt : ℚ → ℚ) (h : OfSquares rt) : delta rt softLoop (1179680 / 15142343) = some 0 := by
  have hd : discriminant softLoop (1179680 / 15142343) = 19876484229 / 2301636136 * (19876484229 / 2301636136) := by decide +kernel
  have hr := h (19876484229 / 2301636136) (by norm_num)
  have hm : middle softLoop (1179680 / 15142343) = -20281573011 / 2301636136 := by decide +kernel
  have hl : leading softLoop (1179680 / 15142343) = 1012721955 / 287704517 := by decide +kernel
  unfold delta rootOf
  rw [hd, hr, hm, hl]
  norm_num

theorem soft_large (rt : ℚ → ℚ) (h : OfSquares rt) : delta rt softLoop (4126880 / 47470949) =
    some ((-(1 / 20) / (63 / 8 + 317 / 152 * (1 / 20)) - -(2 * 1 + 1 / 20) / (63 / 8 + 17 / 8 * (2 * 1 + 1 / 20))) / 2) := by
  have hd : discriminant softLoop (4126880 / 47470949) = 62085792447 / 7215584248 * (62085792447 / 7215584248) := by decide +kernel
  have hr := h (62085792447 / 7215584248) (by norm_num)
  have hm : middle softLoop (4126880 / 47470949) = -60844719033 / 7215584248 := by decide +kernel
  have hl : leading softLoop (4126880 / 47470949) = 3102683535 / 901948031 := by decide +kernel
  have hu : rootOf rt softLoop (4126880 / 47470949) = 1 / 20 := by
    unfold rootOf
    rw [hd, hr, hm, hl]
    norm_num
  unfold delta
  rw [hu, hd, hl]
  norm_num [softLoop]

/-- The losses by hysteresis once the branches are moved. -/
def hysteresisAt (d peak : ℚ) : ℚ :=
  (List.zipWith (fun x y => |x - y| * (1 / 10)) (kept peak ((fields (1 / 10) 20).map fun h => (upper softLoop h).map fun x => x - d))
    (kept peak ((fields (1 / 10) 20).map fun h => (lower softLoop h).map fun x => x + d))).sum * 100000

/-- C162 fails: the losses by hysteresis of a swing of 78 mT are less than a four hundredth of those of one of 87 mT. -/
theorem hysteresis_collapses (rt : ℚ → ℚ) (h : OfSquares rt) : ∃ x y, hysteresis rt (1 / 10) 20 (2 / 5) 1 (1 / 10) 100000 (1179680 / 15142343) = .ok x ∧
    hysteresis rt (1 / 10) 20 (2 / 5) 1 (1 / 10) 100000 (4126880 / 47470949) = .ok y ∧ 400 * x < y := by
  refine ⟨hysteresisAt 0 (1179680 / 15142343), hysteresisAt ((-(1 / 20) / (63 / 8 + 317 / 152 * (1 / 20)) -
    -(2 * 1 + 1 / 20) / (63 / 8 + 17 / 8 * (2 * 1 + 1 / 20))) / 2) (4126880 / 47470949), ?_, ?_, ?_⟩
  · unfold hysteresis
    rw [softLoop_eq]
    simp only [bhLoop, soft_small rt h]
    rfl
  · unfold hysteresis
    rw [softLoop_eq]
    simp only [bhLoop, soft_large rt h]
    rfl
  · decide +kernel

example : ∃ rt : ℚ → ℚ, OfSquares rt := by
  classical
  refine ⟨fun x => if h : ∃ y, 0 ≤ y ∧ y * y = x then h.choose else 0, fun x hx => ?_⟩
  have h : ∃ y : ℚ, 0 ≤ y ∧ y * y = x * x := ⟨x, hx, rfl⟩
  simp only [dif_pos h]
  exact (mul_self_inj h.choose_spec.1 hx).mp h.choose_spec.2

/-! ## Eddy currents and the sum (C163) -/

/-- C163: the resistivity used is positive when the material has coefficients for it. -/
theorem resistivity_positive (c : ℝ × ℝ × ℝ × ℝ) (own t peak f : ℝ) :
    (∃ r, 0 < r ∧ roshenResistivity (some c) own t peak f = .ok r ∧ r = c.1 + c.2.1 * (t - 25) + c.2.2.1 * peak + c.2.2.2 * f) ∨
    (roshenResistivity (some c) own t peak f = .throws .calculationError ∧ c.1 + c.2.1 * (t - 25) + c.2.2.1 * peak + c.2.2.2 * f ≤ 0) := by
  obtain ⟨c0, ct, cb, cf⟩ := c
  unfold roshenResistivity
  by_cases h : c0 + ct * (t - 25) + cb * peak + cf * f ≤ 0
  · exact Or.inr ⟨by simp only [if_pos h], h⟩
  · exact Or.inl ⟨_, not_le.mp h, by simp only [if_neg h], rfl⟩

/-- C163: the losses by eddy currents are A/(8πρ)·f times the integral of the square of the slope. -/
theorem eddy_equation (area rho f : ℝ) (points : List (ℝ × ℝ)) (hr : rho ≠ 0) (hp : points ≠ []) (hrise : Rising points) :
    eddy area rho f points = .ok (area / (8 * Real.pi * rho) * f * integral 2 points) := by
  unfold eddy
  rw [squares_eq 1 (fun dt db => .ok ((db / dt) ^ 2 * dt)) (fun dt db _ => by simp) hp hrise]
  simp only [Res.bind, if_neg hr, Res.ok.injEq, one_mul]
  rw [div_div, div_div]
  congr 3
  ring

/-- C163: those of the excess are √(αN/ρ)·f times the integral of the absolute slope to three halves. -/
theorem excess_equation (c rho f : ℝ) (points : List (ℝ × ℝ)) (hc : 0 ≤ c) (hr : 0 < rho) (hp : points ≠ []) (hrise : Rising points) :
    excess c rho f points = .ok (Real.sqrt (c / rho) * f * integral (3 / 2) points) := by
  have key : ∀ {l : List (ℝ × ℝ)}, l ≠ [] → Rising l →
      overSteps (fun dt db => (cpow (|db| / dt) (3 / 2)).bind fun x => .ok (x * dt)) l = .ok (integral (3 / 2) l) := by
    intro l hl hrl
    rw [← slopes_eq (alpha := 3 / 2) (by norm_num) hl hrl]
    unfold slopes
    induction l with
    | nil => exact absurd rfl hl
    | cons p l ih =>
      cases l with
      | nil => rw [overSteps_singleton, overSteps_singleton]
      | cons q l =>
        have h := hrl.head
        rw [overSteps_cons _ _ _ _ h, overSteps_cons _ _ _ _ h, ih (by simp) hrl.tail, abs_div, abs_of_pos (sub_pos.mpr h)]
  unfold excess
  rw [key hp hrise]
  have : ¬(rho = 0 ∨ c / rho < 0) := by
    rintro (h | h)
    · exact hr.ne' h
    · exact absurd h (not_lt.mpr (by positivity))
  simp only [Res.bind, if_neg this]

/-- C163: both are a number and not negative, and are the same for a waveform that is biased. -/
theorem eddy_nonneg (area c rho f : ℝ) (points : List (ℝ × ℝ)) (ha : 0 ≤ area) (hc : 0 ≤ c) (hr : 0 < rho) (hf : 0 ≤ f) (hp : points ≠ [])
    (hrise : Rising points) : ∃ x y, eddy area rho f points = .ok x ∧ excess c rho f points = .ok y ∧ 0 ≤ x ∧ 0 ≤ y := by
  have h1 := integral_nonneg 2 hrise
  have h2 := integral_nonneg (3 / 2) hrise
  have := Real.pi_pos
  exact ⟨_, _, eddy_equation area rho f points hr.ne' hp hrise, excess_equation c rho f points hc hr hp hrise, by positivity, by positivity⟩

/-- C163: of all the waveforms of a swing and a frequency, none has less losses by eddy currents than the triangle that goes up and down in
the same time, which has A·ΔB²·f²/(2πρ). -/
theorem eddy_least (area rho f swing : ℝ) (points : List (ℝ × ℝ)) (ha : 0 ≤ area) (hr : 0 < rho) (hf : 0 < f) (hs : 0 < swing)
    (hp : Period f swing points) (hne : points ≠ []) (hrise : Rising points) (a b t0 : ℝ) (hab : |b - a| = swing) :
    ∃ x, eddy area rho f points = .ok x ∧ area * swing ^ 2 * f ^ 2 / (2 * Real.pi * rho) ≤ x ∧
      eddy area rho f (triangle f a b (1 / 2) t0) = .ok (area * swing ^ 2 * f ^ 2 / (2 * Real.pi * rho)) := by
  have hpi := Real.pi_pos
  obtain ⟨h1, h2⟩ := equivalent_least f swing points hf hs hp
  have h2 := h2 a b t0 hab
  have e1 : 4 * swing ^ 2 * f ≤ integral 2 points := by
    have : 2 / Real.pi ^ 2 / swing ^ 2 * (4 * swing ^ 2 * f) ≤ 2 / Real.pi ^ 2 / swing ^ 2 * integral 2 points := by
      calc 2 / Real.pi ^ 2 / swing ^ 2 * (4 * swing ^ 2 * f) = 8 / Real.pi ^ 2 * f := by field_simp; ring
        _ ≤ _ := h1
    exact le_of_mul_le_mul_left this (by positivity)
  have e2 : integral 2 (triangle f a b (1 / 2) t0) = 4 * swing ^ 2 * f := by
    have : 2 / Real.pi ^ 2 / swing ^ 2 * integral 2 (triangle f a b (1 / 2) t0) = 2 / Real.pi ^ 2 / swing ^ 2 * (4 * swing ^ 2 * f) := by
      rw [h2]; field_simp; ring
    exact mul_left_cancel₀ (by positivity) this
  refine ⟨_, eddy_equation area rho f points hr.ne' hne hrise, ?_, ?_⟩
  · calc area * swing ^ 2 * f ^ 2 / (2 * Real.pi * rho) = area / (8 * Real.pi * rho) * f * (4 * swing ^ 2 * f) := by field_simp; ring
      _ ≤ _ := mul_le_mul_of_nonneg_left e1 (by positivity)
  · rw [eddy_equation area rho f _ hr.ne' (by simp [triangle]) (triangle_rising hf (by norm_num) (by norm_num)), e2]
    congr 1
    field_simp
    ring

/-- C163: the losses are those by hysteresis and those by eddy currents, excess included, and the ones by volume times the volume are
the losses. -/
theorem components_add_partial (volume hyst edd exc factor : ℝ) (hf : factor ≤ 1) :
    (roshenCorrected (roshenOutput volume hyst edd exc) factor).losses =
      (roshenCorrected (roshenOutput volume hyst edd exc) factor).hysteresis + (roshenCorrected (roshenOutput volume hyst edd exc) factor).eddy ∧
    (roshenCorrected (roshenOutput volume hyst edd exc) factor).losses =
      (roshenCorrected (roshenOutput volume hyst edd exc) factor).volumetric * volume := by
  unfold roshenCorrected
  rw [if_neg (not_lt.mpr hf)]
  unfold roshenOutput
  constructor <;> ring

/-- C163 fails: with bias the losses are more than those by hysteresis and by eddy currents together. -/
theorem components_short (volume hyst edd exc factor : ℝ) (hf : 1 < factor) (hp : 0 < (hyst + edd + exc) * volume) :
    (roshenCorrected (roshenOutput volume hyst edd exc) factor).hysteresis + (roshenCorrected (roshenOutput volume hyst edd exc) factor).eddy <
      (roshenCorrected (roshenOutput volume hyst edd exc) factor).losses ∧
    (roshenCorrected (roshenOutput volume hyst edd exc) factor).losses =
      (roshenCorrected (roshenOutput volume hyst edd exc) factor).volumetric * volume := by
  unfold roshenCorrected
  rw [if_pos hf]
  unfold roshenOutput
  simp only
  constructor
  · nlinarith
  · ring

example : (1 : ℝ) < 2 ∧ (0 : ℝ) < (1 + 1 + 1) * 1 := by norm_num

/-- C163: the losses by volume asked for alone agree with those of a core exactly when its first column has the area of the ring, if
there is any slope. -/
theorem ring_agrees_iff (h ring area rho f : ℝ) (c : Option ℝ) (points : List (ℝ × ℝ)) (hc : ∀ x, c = some x → 0 ≤ x) (hr : 0 < rho) (hf : 0 < f)
    (hp : points ≠ []) (hrise : Rising points) (hi : 0 < integral 2 points) :
    roshenVolumetric (.ok h) ring rho f points c = roshenVolumetric (.ok h) area rho f points c ↔ ring = area := by
  have hpi := Real.pi_pos
  constructor
  · intro he
    have key : ring / (8 * Real.pi * rho) * f * integral 2 points = area / (8 * Real.pi * rho) * f * integral 2 points := by
      unfold roshenVolumetric at he
      rw [eddy_equation _ rho f points hr.ne' hp hrise, eddy_equation _ rho f points hr.ne' hp hrise] at he
      cases c with
      | none => simp only [Res.bind, Res.ok.injEq] at he; linarith
      | some x =>
        simp only [Res.bind, excess_equation x rho f points (hc x rfl) hr hp hrise, Res.ok.injEq] at he
        linarith
    have h1 := mul_right_cancel₀ hi.ne' key
    have h2 := mul_right_cancel₀ hf.ne' h1
    exact (div_left_inj' (by positivity : (8 * Real.pi * rho) ≠ 0)).mp h2
  · rintro rfl; rfl

/-- C163 fails: for a column of ten times the area, and no hysteresis, they are ten times less. -/
theorem ring_witness (ring rho f : ℝ) (points : List (ℝ × ℝ)) (hr : 0 < rho) (hp : points ≠ []) (hrise : Rising points) :
    ∃ x, roshenVolumetric (.ok 0) ring rho f points none = .ok x ∧ roshenVolumetric (.ok 0) (10 * ring) rho f points none = .ok (10 * x) := by
  refine ⟨0 + ring / (8 * Real.pi * rho) * f * integral 2 points + 0, ?_, ?_⟩
  · unfold roshenVolumetric
    rw [eddy_equation _ rho f points hr.ne' hp hrise]
    rfl
  · unfold roshenVolumetric
    rw [eddy_equation _ rho f points hr.ne' hp hrise]
    simp only [Res.bind, Res.ok.injEq]
    ring

example : Rising (triangle 1 0 1 (1 / 2) 0) := triangle_rising (by norm_num) (by norm_num) (by norm_num)

end Verif.CoreLosses
