import Mathlib.Tactic.Ring
import Mathlib.Tactic.Linarith
import Mathlib.Tactic.NormNum
import Mathlib.Tactic.FieldSimp
import Mathlib.Tactic.Positivity
import Mathlib.Algebra.Order.Ring.Rat
import Verif.Grid.Model

/-! # Properties of the grid of points of a winding window -/

set_option linter.unusedSimpArgs false
set_option linter.unusedVariables false
set_option linter.unusedSectionVars false

namespace Verif.Grid

open Verif.Filters

variable {K : Type} [Field K] [LinearOrder K] [IsStrictOrderedRing K]

/-- Spec: the middles of `n` equal parts of an interval, in order. -/
def middles (start stop : K) (n : Nat) : List K :=
  (List.range n).map fun (i : Nat) => (start + i * ((stop - start) / n) + (start + (i + 1) * ((stop - start) / n))) / 2

theorem axis_eq (start stop : K) (n : Nat) : axis start stop n = middles start stop n := by
  unfold axis Sampling.linspace middles
  by_cases h0 : n = 0
  · rw [if_pos h0, h0]; rfl
  by_cases h1 : n = 1
  · rw [if_neg h0, if_pos h1, h1]
    simp only [List.range_one, List.map_cons, List.map_nil, Nat.cast_one, Nat.cast_zero, div_one]
    congr 1
    ring
  rw [if_neg h0, if_neg h1]
  apply List.map_congr_left
  intro i _
  have hn : (n : K) ≠ 0 := by exact_mod_cast h0
  have hm : ((n - 1 : Nat) : K) = n - 1 := by rw [Nat.cast_sub (by omega), Nat.cast_one]
  have hm0 : (n : K) - 1 ≠ 0 := by
    intro e
    have : (n : K) = 1 := by linarith
    exact h1 (by exact_mod_cast this)
  rw [hm]
  have e : (stop - (stop - start) / n / 2 - (start + (stop - start) / n / 2)) / ((n : K) - 1) = (stop - start) / n := by
    rw [div_eq_iff hm0]
    field_simp
    ring
  rw [e]
  ring

/-- **C438.** The points of a core that is no toroid are the middles of equal cells that fill the space from the main column to the far
side of the window, as high as the column, and the area of a cell is what it says. -/
theorem single_cells (centre width columnWidth columnHeight : K) (nx ny : Nat) :
    let g := single centre width columnWidth columnHeight nx ny
    g.xs = middles (columnWidth / 2) (centre + width / 2) nx ∧ g.ys = middles (-(columnHeight / 2)) (columnHeight / 2) ny ∧
      (nx ≠ 0 → ny ≠ 0 → nx * ny * g.cell = (centre + width / 2 - columnWidth / 2) * columnHeight) := by
  have e : centre - width / 2 + width = centre + width / 2 := by ring
  refine ⟨?_, ?_, fun hx hy => ?_⟩
  · simp only [single]; rw [axis_eq, e]
  · simp only [single]; rw [axis_eq, neg_div]
  · have h1 : (nx : K) ≠ 0 := by exact_mod_cast hx
    have h2 : (ny : K) ≠ 0 := by exact_mod_cast hy
    simp only [single]
    rw [e]
    field_simp

example : (single (K := ℚ) 10 8 4 20 2 4).xs = [5, 11] ∧ (single (K := ℚ) 10 8 4 20 2 4).ys = [-15 / 2, -5 / 2, 5 / 2, 15 / 2] :=
  ⟨by decide +kernel, by decide +kernel⟩

/-- **C438.** Of several windows likewise, each about its own centre. -/
theorem region_cells (r : Region K) (nx ny : Nat) :
    axis (r.centre.1 - r.width / 2) (r.centre.1 + r.width / 2) nx =
        middles (r.centre.1 - r.width / 2) (r.centre.1 + r.width / 2) nx ∧
      (nx ≠ 0 → ny ≠ 0 → nx * ny * r.cell nx ny = r.width * r.height) := by
  refine ⟨axis_eq _ _ _, fun hx hy => ?_⟩
  have h1 : (nx : K) ≠ 0 := by exact_mod_cast hx
  have h2 : (ny : K) ≠ 0 := by exact_mod_cast hy
  unfold Region.cell
  field_simp

/-- **C438.** The cells of a toroid have together the area of its square. -/
theorem toroid_area_partial (coreWidth coreHeight extra : K) {nx ny : Nat} (hx : nx ≠ 0) (hy : ny ≠ 0) :
    nx * ny * (toroid coreWidth coreHeight extra nx ny).cell = (coreWidth * extra) * (coreHeight * extra) := by
  have h1 : (nx : K) ≠ 0 := by exact_mod_cast hx
  have h2 : (ny : K) ≠ 0 := by exact_mod_cast hy
  simp only [toroid]
  field_simp

/-- **C438.** Its points are not the middles of its cells: they go from edge to edge. -/
theorem toroid_edges : (toroid (K := ℚ) 20 10 1 5 5).xs = [-10, -5, 0, 5, 10] ∧
    middles (-10 : ℚ) 10 5 = [-8, -4, 0, 4, 8] ∧ (toroid (K := ℚ) 20 10 1 5 5).cell = 4 * 2 :=
  ⟨by decide +kernel, by decide +kernel, by decide +kernel⟩

theorem same_comm (c d : K × K) : same c d = same d c := by
  unfold same
  rw [abs_sub_comm d.1, abs_sub_comm d.2]

theorem regions_from (nx ny : Nat) : ∀ (ws : List (Window K)) (done : List (K × K)) (common : Option K)
    (rs : List (Region K)) (a : K), regions nx ny done common ws = .value (rs, a) →
      (∀ b, common = some b → a = b) ∧
      (∀ r ∈ rs, (∃ w ∈ ws, w.complete = some r) ∧ (∀ d ∈ done, same r.centre d = false) ∧
        |r.cell nx ny - a| ≤ |a| / 10 ^ 6) ∧
      (∀ w ∈ ws, ∀ r, w.complete = some r → (∃ d ∈ done, same r.centre d = true) ∨ ∃ s ∈ rs, s = r ∨ same r.centre s.centre = true) ∧
      rs.Pairwise (fun r s => same s.centre r.centre = false)
  | [], done, none, rs, a, h => by simp [regions] at h
  | [], done, some b, rs, a, h => by
    simp only [regions, Outcome.value.injEq, Prod.mk.injEq] at h
    obtain ⟨rfl, rfl⟩ := h
    exact ⟨fun c hc => by simpa using hc, by simp, by simp, List.Pairwise.nil⟩
  | w :: ws, done, common, rs, a, h => by
    unfold regions at h
    cases hw : w.complete with
    | none =>
      rw [hw] at h
      obtain ⟨h1, h2, h3, h4⟩ := regions_from nx ny ws done common rs a h
      refine ⟨h1, fun r hr => ?_, fun v hv r hr => ?_, h4⟩
      · obtain ⟨⟨v, hv, hc⟩, g⟩ := h2 r hr
        exact ⟨⟨v, List.mem_cons_of_mem _ hv, hc⟩, g⟩
      · rcases List.mem_cons.mp hv with rfl | hv
        · rw [hw] at hr; simp at hr
        · exact h3 v hv r hr
    | some r =>
      rw [hw] at h
      simp only at h
      by_cases hd : done.any (same r.centre) = true
      · rw [if_pos hd] at h
        obtain ⟨h1, h2, h3, h4⟩ := regions_from nx ny ws done common rs a h
        refine ⟨h1, fun s hs => ?_, fun v hv s hs => ?_, h4⟩
        · obtain ⟨⟨v, hv, hc⟩, g⟩ := h2 s hs
          exact ⟨⟨v, List.mem_cons_of_mem _ hv, hc⟩, g⟩
        · rcases List.mem_cons.mp hv with rfl | hv
          · rw [hw, Option.some.injEq] at hs
            subst hs
            left
            simpa using hd
          · exact h3 v hv s hs
      · rw [if_neg hd] at h
        have hd' : ∀ d ∈ done, same r.centre d = false := by
          intro d hd1
          by_contra hc
          exact hd (List.any_eq_true.mpr ⟨d, hd1, by simpa using hc⟩)
        have key : ∀ b : K, |r.cell nx ny - b| ≤ |b| / 10 ^ 6 → (∀ b', common = some b' → b = b') →
            ((regions nx ny (r.centre :: done) (some b) ws).bind fun o => Outcome.value (r :: o.1, o.2)) = .value (rs, a) →
            (∀ b, common = some b → a = b) ∧
            (∀ r ∈ rs, (∃ v ∈ w :: ws, v.complete = some r) ∧ (∀ d ∈ done, same r.centre d = false) ∧
              |r.cell nx ny - a| ≤ |a| / 10 ^ 6) ∧
            (∀ v ∈ w :: ws, ∀ r, v.complete = some r →
              (∃ d ∈ done, same r.centre d = true) ∨ ∃ s ∈ rs, s = r ∨ same r.centre s.centre = true) ∧
            rs.Pairwise (fun r s => same s.centre r.centre = false) := by
          intro b hb hcm hv
          cases ho : regions nx ny (r.centre :: done) (some b) ws with
          | throws => rw [ho] at hv; simp [Outcome.bind] at hv
          | undefined => rw [ho] at hv; simp [Outcome.bind] at hv
          | value o =>
            obtain ⟨o1, o2⟩ := o
            rw [ho] at hv
            simp only [Outcome.bind, Outcome.value.injEq, Prod.mk.injEq] at hv
            obtain ⟨rfl, rfl⟩ := hv
            obtain ⟨h1, h2, h3, h4⟩ := regions_from nx ny ws (r.centre :: done) (some b) o1 o2 ho
            have hab : o2 = b := h1 b rfl
            refine ⟨fun b' hb' => hab.trans (hcm b' hb'), fun s hs => ?_, fun v hv s hs => ?_, ?_⟩
            · rcases List.mem_cons.mp hs with rfl | hs
              · exact ⟨⟨w, List.mem_cons_self, hw⟩, hd', hab ▸ hb⟩
              · obtain ⟨⟨v, hv, hc⟩, g, g'⟩ := h2 s hs
                exact ⟨⟨v, List.mem_cons_of_mem _ hv, hc⟩, fun d hd => g d (List.mem_cons_of_mem _ hd), g'⟩
            · rcases List.mem_cons.mp hv with rfl | hv
              · rw [hw, Option.some.injEq] at hs
                subst hs
                exact .inr ⟨r, List.mem_cons_self, .inl rfl⟩
              · rcases h3 v hv s hs with ⟨d, hd, e⟩ | ⟨t, ht, e⟩
                · rcases List.mem_cons.mp hd with rfl | hd
                  · exact .inr ⟨r, List.mem_cons_self, .inr e⟩
                  · exact .inl ⟨d, hd, e⟩
                · exact .inr ⟨t, List.mem_cons_of_mem _ ht, e⟩
            · exact List.pairwise_cons.mpr ⟨fun s hs => (h2 s hs).2.1 r.centre List.mem_cons_self, h4⟩
        cases common with
        | none => exact key _ (by rw [sub_self, abs_zero]; positivity) (by simp) h
        | some b =>
          simp only at h
          by_cases hb : b / 10 ^ 6 < |r.cell nx ny - b|
          · rw [if_pos hb] at h; simp at h
          · rw [if_neg hb] at h
            exact key b (le_trans (not_lt.mp hb) (div_le_div_of_nonneg_right (le_abs_self b) (by positivity)))
              (fun b' hb' => by simpa using hb') h

/-- **C439.** Each winding window that has its centre and sizes is meshed, and those at one place once: the regions are windows, no two
at one place, each window is one or at the place of one, and their cells have the area that is returned, but for a millionth. -/
theorem regions_spec {nx ny : Nat} {ws : List (Window K)} {rs : List (Region K)} {a : K}
    (h : regions nx ny [] none ws = .value (rs, a)) :
    (∀ r ∈ rs, ∃ w ∈ ws, w.complete = some r) ∧
      (∀ w ∈ ws, ∀ r, w.complete = some r → ∃ s ∈ rs, s = r ∨
        |s.centre.1 - r.centre.1| < 1 / 10 ^ 9 ∧ |s.centre.2 - r.centre.2| < 1 / 10 ^ 9) ∧
      rs.Pairwise (fun r s => 1 / 10 ^ 9 ≤ |r.centre.1 - s.centre.1| ∨ 1 / 10 ^ 9 ≤ |r.centre.2 - s.centre.2|) ∧
      ∀ r ∈ rs, |r.width / nx * (r.height / ny) - a| ≤ |a| / 10 ^ 6 := by
  obtain ⟨-, h2, h3, h4⟩ := regions_from nx ny ws [] none rs a h
  refine ⟨fun r hr => (h2 r hr).1, fun w hw r hr => ?_, h4.imp fun {r s} e => ?_, fun r hr => (h2 r hr).2.2⟩
  · rcases h3 w hw r hr with ⟨d, hd, -⟩ | ⟨s, hs, e⟩
    · simp at hd
    · refine ⟨s, hs, e.imp id fun e => ?_⟩
      simpa [same] using e
  · unfold same at e
    rw [Bool.and_eq_false_iff, decide_eq_false_iff_not, decide_eq_false_iff_not, not_lt, not_lt] at e
    exact e

/-- **C439.** Without such a window it throws. -/
theorem no_region (nx ny : Nat) : ∀ ws : List (Window K), (∀ w ∈ ws, w.complete = none) → regions nx ny [] none ws = .throws
  | [], _ => rfl
  | w :: ws, h => by
    unfold regions
    rw [h w List.mem_cons_self]
    exact no_region nx ny ws fun v hv => h v (List.mem_cons_of_mem _ hv)

example : regions (K := ℚ) 2 2 [] none [⟨some (10, 0), some 8, some 20⟩, ⟨some (-10, 0), some 8, some 20⟩,
    ⟨some (10, 0), some 8, some 20⟩] = .value ([⟨(10, 0), 8, 20⟩, ⟨(-10, 0), 8, 20⟩], 40) := by decide +kernel

theorem mem_points {o : Choice K} {ts : List (Turn K)} {xs ys : List K} {p : K × K} :
    p ∈ points o ts xs ys ↔ p.1 ∈ xs ∧ p.2 ∈ ys ∧ kept o ts p = true := by
  unfold points
  simp only [List.mem_flatMap, List.mem_filter, List.mem_map]
  constructor
  · rintro ⟨y, hy, ⟨x, hx, rfl⟩, hk⟩; exact ⟨hx, hy, hk⟩
  · rintro ⟨hx, hy, hk⟩; exact ⟨p.2, hy, ⟨p.1, hx, rfl⟩, hk⟩

/-- Spec: a point is inside a crossing of a turn whose sizes are divided by the factor. -/
def Inside (factor : K) (t : Turn K) (p : K × K) : Prop :=
  ∃ c, (c = t.first ∨ c ∈ t.others) ∧
    if t.round then 0 < t.width ∧ (|c.1 - p.1| * factor) ^ 2 + (|c.2 - p.2| * factor) ^ 2 < (t.width / 2) ^ 2
    else |c.1 - p.1| * factor < t.width / 2 ∧ |c.2 - p.2| * factor < t.height / 2

theorem insideAt_iff (factor : K) (t : Turn K) (c p : K × K) : insideAt factor t c p = true ↔
    if t.round then 0 < t.width ∧ (|c.1 - p.1| * factor) ^ 2 + (|c.2 - p.2| * factor) ^ 2 < (t.width / 2) ^ 2
    else |c.1 - p.1| * factor < t.width / 2 ∧ |c.2 - p.2| * factor < t.height / 2 := by
  unfold insideAt within
  by_cases h : t.round = true
  · simp only [h, if_true, Bool.and_eq_true, decide_eq_true_eq, sq]
    exact and_congr_left fun _ => ⟨fun g => by linarith, fun g => by linarith⟩
  · simp only [h, if_false, Bool.and_eq_true, decide_eq_true_eq, Bool.false_eq_true]

theorem insideTurns_iff (factor : K) (ts : List (Turn K)) (p : K × K) :
    insideTurns factor ts p = true ↔ ∃ t ∈ ts, Inside factor t p := by
  unfold insideTurns Inside
  simp only [List.any_eq_true, Bool.or_eq_true, insideAt_iff]
  constructor
  · rintro ⟨t, ht, h | ⟨c, hc, h⟩⟩
    · exact ⟨t, ht, t.first, .inl rfl, h⟩
    · exact ⟨t, ht, c, .inr hc, h⟩
  · rintro ⟨t, ht, c, rfl | hc, h⟩
    · exact ⟨t, ht, .inl h⟩
    · exact ⟨t, ht, .inr ⟨c, hc, h⟩⟩

/-- Spec: a point is at least twice the larger dimension of each turn away from each of its crossings. -/
def Far (ts : List (Turn K)) (p : K × K) : Prop :=
  ∀ t ∈ ts, ∀ c, c = t.first ∨ c ∈ t.others →
    max t.width t.height ≤ 0 ∨ (2 * max t.width t.height) ^ 2 ≤ (c.1 - p.1) ^ 2 + (c.2 - p.2) ^ 2

theorem far_iff (ts : List (Turn K)) (p : K × K) : farFrom ts p = true ↔ Far ts p := by
  have hw : ∀ (a b r : K), (!within |a| |b| (r * 2)) = true ↔ r ≤ 0 ∨ (2 * r) ^ 2 ≤ a ^ 2 + b ^ 2 := by
    intro a b r
    unfold within
    rw [abs_mul_abs_self, abs_mul_abs_self]
    simp only [Bool.not_eq_true', Bool.and_eq_false_iff, decide_eq_false_iff_not, not_lt, sq]
    constructor
    · rintro (h | h)
      · left; linarith
      · right; linarith
    · rintro (h | h)
      · left; linarith
      · right; linarith
  unfold farFrom Far
  simp only [List.all_eq_true, Bool.and_eq_true, hw]
  constructor
  · rintro h t ht c (rfl | hc)
    · exact (h t ht).1
    · exact (h t ht).2 c hc
  · intro h t ht
    exact ⟨h t ht _ (.inl rfl), fun c hc => h t ht c (.inr hc)⟩

theorem xor_decide (a b : Prop) [Decidable a] [Decidable b] : (decide a ^^ decide b) = true ↔ (a ↔ ¬ b) := by
  by_cases ha : a <;> by_cases hb : b <;> simp [ha, hb]

/-- **C440.** A point is passed by all turns when none is to the right of it and either none is below it or none above, but not
both. -/
theorem passed_iff (ts : List (Turn K)) (p : K × K) : passed ts p = true ↔ (∀ t ∈ ts, t.first.1 ≤ p.1) ∧
    ((∀ t ∈ ts, p.2 ≤ t.first.2) ↔ ¬ ∀ t ∈ ts, t.first.2 ≤ p.2) := by
  unfold passed
  have e1 : (!ts.any fun t => decide (t.first.2 < p.2)) = decide (∀ t ∈ ts, p.2 ≤ t.first.2) := by
    rw [Bool.eq_iff_iff]; simp [List.any_eq_false, not_lt]
  have e2 : (!ts.any fun t => decide (p.2 < t.first.2)) = decide (∀ t ∈ ts, t.first.2 ≤ p.2) := by
    rw [Bool.eq_iff_iff]; simp [List.any_eq_false, not_lt]
  rw [e1, e2]
  by_cases h : (ts.any fun t => decide (p.1 < t.first.1)) = true
  · rw [if_pos h]
    refine iff_of_false (by simp) ?_
    rintro ⟨g, -⟩
    obtain ⟨t, ht, hl⟩ := List.any_eq_true.mp h
    exact absurd (g t ht) (not_le.mpr (by simpa using hl))
  · rw [if_neg h]
    have hg : ∀ t ∈ ts, t.first.1 ≤ p.1 := by
      intro t ht
      by_contra hc
      exact h (List.any_eq_true.mpr ⟨t, ht, by simpa using hc⟩)
    rw [xor_decide]
    exact ⟨fun e => ⟨hg, e⟩, fun e => e.2⟩

/-- **C440.** The points that are kept are those of the grid that are near some turn, or, when turns follow each other in one direction,
not passed by all, if turns are not ignored; and of those, if points inside turns are not wanted or the wire is planar, those that are
inside none. -/
theorem kept_spec {o : Choice K} {ts : List (Turn K)} {xs ys : List K} {p : K × K} :
    p ∈ points o ts xs ys ↔ p.1 ∈ xs ∧ p.2 ∈ ys ∧
      (o.ignoreTurns = false → Far ts p → o.contiguous = true ∧ passed ts p = false) ∧
      ((o.planar = true ∧ o.ignoreTurns = true) ∨ (o.planar = false ∧ o.includeInside = true) ∨ ∀ t ∈ ts, ¬ Inside o.factor t p) := by
  rw [mem_points]
  refine and_congr_right fun _ => and_congr_right fun _ => ?_
  have hi : insideTurns o.factor ts p = false ↔ ∀ t ∈ ts, ¬ Inside o.factor t p := by
    rw [← Bool.not_eq_true, insideTurns_iff]; push Not; rfl
  rw [← hi, ← far_iff]
  unfold kept
  obtain ⟨a, b, c, d, f⟩ := o
  cases a <;> cases b <;> cases c <;> cases d <;> cases farFrom ts p <;> cases passed ts p <;>
    cases insideTurns f ts p <;> simp

/-- **C440.** When points inside turns are not wanted none is kept, unless the wire is planar and turns are ignored. -/
theorem none_inside_partial {o : Choice K} {ts : List (Turn K)} {xs ys : List K} {p : K × K} (h : p ∈ points o ts xs ys)
    (hi : o.includeInside = false) (hp : o.planar = false ∨ o.ignoreTurns = false) : ∀ t ∈ ts, ¬ Inside o.factor t p := by
  obtain ⟨-, -, -, g | g | g⟩ := kept_spec.mp h
  · rcases hp with hp | hp
    · rw [hp] at g; simp at g
    · rw [hp] at g; simp at g
  · rw [hi] at g; simp at g
  · exact g

/-- **C440.** Of a planar wire whose turns are ignored the middle of a turn is kept. -/
theorem planar_inside : ((0 : ℚ), (0 : ℚ)) ∈ points (K := ℚ) ⟨true, false, true, false, 105 / 100⟩ [⟨(0, 0), [], 2, 1, false⟩] [0] [0] := by
  decide +kernel

example : points (K := ℚ) ⟨false, false, false, false, 105 / 100⟩ [⟨(0, 0), [], 2, 2, true⟩] [0, 2, 9] [0] = [(2, 0)] := by
  decide +kernel

end Verif.Grid
