import Verif.Hysteresis.Lemmas
import Mathlib.Algebra.Order.Field.Rat

/-!
# Properties of the hysteresis loop

A material is *ordinary* if its coercive force is below the field of saturation and its remanence below the flux density of saturation, all
positive.
-/

set_option linter.unusedSectionVars false
set_option linter.unusedSimpArgs false

namespace Verif.Hysteresis

variable {K : Type} [Field K] [LinearOrder K] [IsStrictOrderedRing K]

/-! ## Specification -/

/-- An ordinary material. -/
def Ordinary (m : Material K) : Prop := 0 < m.coercive ∧ m.coercive < m.field ∧ 0 < m.remanence ∧ m.remanence < m.flux

/-- The peak is far from the other field strengths that are looked at, or the same: saturation, coercive force and the ones near zero. -/
def Apart (m : Material K) (h : K) : Prop :=
  2 / 10 ^ 5 ≤ h ∧ ∀ r ∈ [m.field, m.coercive, m.field / 1000, m.coercive / 10], r = h ∨ 1 / 10 ^ 6 ≤ |r - h|

/-- The fluxes of a path rise with its fields. -/
def Rising (l : List (K × K)) : Prop := l.Pairwise fun a b => a.1 < b.1 ∧ a.2 < b.2

/-- A path is within a field. -/
def Within (h : K) (l : List (K × K)) : Prop := ∀ q ∈ l, -h ≤ q.1 ∧ q.1 ≤ h

/-! ## The loop for a field strength -/

theorem field_loop (m : Material K) (ho : Ordinary m) (f : Option K) (h : K) (hh : h ≤ m.field) :
    ∃ p, majorLoop m = some p ∧ Fitted m p ∧ loop m ⟨f, some h⟩ = .ok (forField m p (points m (some h)) h) := by
  obtain ⟨p, hp, hf⟩ := majorLoop_fitted m ho.1 ho.2.1 ho.2.2.1 ho.2.2.2
  refine ⟨p, hp, hf, ?_⟩
  unfold loop
  rw [hp]
  have : (points m (some h)).all (isNumber m p) = true := by
    rw [List.all_eq_true]
    intro x hx
    obtain ⟨h1, h2⟩ := raw_bound m ho.1.le ho.2.1.le le_rfl hh x ((points_spec m (some h)).2.1 x hx)
    exact hf.isNumber h1 h2
  simp only [this, if_true]

theorem mem_forField_upper (m : Material K) (p : Params K) (hs : List K) (h : K) (q : K × K) :
    q ∈ (forField m p hs h).upper ↔ q.1 ∈ hs ∧ q.1 ≤ h ∧ -h ≤ q.1 ∧ q.2 = upper m p q.1 -
      |upper m p (nearest h (hs.headD 0) hs.tail) - lower m p (nearest h (hs.headD 0) hs.tail)| / 2 := by
  unfold forField Loop.keep Loop.shift major
  simp only [List.map_map, List.mem_filter, List.mem_map, Function.comp_apply, Bool.and_eq_true, decide_eq_true_iff, ge_iff_le]
  constructor
  · rintro ⟨⟨x, hx, e⟩, h1, h2⟩
    subst e
    exact ⟨hx, h1, h2, rfl⟩
  · rintro ⟨h0, h1, h2, h3⟩
    exact ⟨⟨q.1, h0, Prod.ext rfl h3.symm⟩, h1, h2⟩

theorem mem_forField_lower (m : Material K) (p : Params K) (hs : List K) (h : K) (q : K × K) :
    q ∈ (forField m p hs h).lower ↔ q.1 ∈ hs ∧ q.1 ≤ h ∧ -h ≤ q.1 ∧ q.2 = lower m p q.1 +
      |upper m p (nearest h (hs.headD 0) hs.tail) - lower m p (nearest h (hs.headD 0) hs.tail)| / 2 := by
  unfold forField Loop.keep Loop.shift major
  simp only [List.map_map, List.mem_filter, List.mem_map, Function.comp_apply, Bool.and_eq_true, decide_eq_true_iff, ge_iff_le]
  constructor
  · rintro ⟨⟨x, hx, e⟩, h1, h2⟩
    subst e
    exact ⟨hx, h1, h2, rfl⟩
  · rintro ⟨h0, h1, h2, h3⟩
    exact ⟨⟨q.1, h0, Prod.ext rfl h3.symm⟩, h1, h2⟩

/-- A path of rising values at rising fields, of which some points are kept, rises. -/
theorem rising_filter (hs : List K) (g : K → K) (d : K) (k : K × K → Bool) (s : K) (hlt : hs.Pairwise (· < ·))
    (hb : ∀ x ∈ hs, -s ≤ x ∧ x ≤ s) (hg : ∀ x y, -s ≤ x → y ≤ s → x < y → g x < g y) :
    Rising ((hs.map fun x => (x, g x + d)).filter k) := by
  unfold Rising
  apply List.Pairwise.filter
  rw [List.pairwise_map]
  refine hlt.imp_of_mem ?_
  intro x y hx hy hxy
  exact ⟨hxy, by
    show g x + d < g y + d
    linarith [hg x y (hb x hx).1 (hb y hy).2 hxy]⟩

/-- **C299.** Up to saturation, a loop for a field strength is answered; its paths are at the same fields, within the one asked for, and along
each the flux density rises with the field. -/
theorem field_rises (m : Material K) (ho : Ordinary m) (f : Option K) (h : K) (hh : h ≤ m.field) :
    ∃ l : Loop K, loop m ⟨f, some h⟩ = .ok l ∧ Within h l.upper ∧ Within h l.lower ∧ Rising l.upper ∧ Rising l.lower ∧
      l.upper.map Prod.fst = l.lower.map Prod.fst := by
  obtain ⟨p, hp, hf, hl⟩ := field_loop m ho f h hh
  refine ⟨_, hl, ?_, ?_, ?_, ?_, ?_⟩
  · intro q hq
    obtain ⟨_, h1, h2, _⟩ := (mem_forField_upper m p _ h q).1 hq
    exact ⟨h2, h1⟩
  · intro q hq
    obtain ⟨_, h1, h2, _⟩ := (mem_forField_lower m p _ h q).1 hq
    exact ⟨h2, h1⟩
  · have hb : ∀ x ∈ points m (some h), -m.field ≤ x ∧ x ≤ m.field := fun x hx =>
      raw_bound m ho.1.le ho.2.1.le le_rfl hh x ((points_spec m (some h)).2.1 x hx)
    have := rising_filter (points m (some h)) (upper m p)
      (-(|upper m p (nearest h ((points m (some h)).headD 0) (points m (some h)).tail) -
        lower m p (nearest h ((points m (some h)).headD 0) (points m (some h)).tail)| / 2))
      (fun q => decide (q.1 ≤ h) && decide (q.1 ≥ -h)) m.field (points_spec m (some h)).1 hb (fun x y => hf.upper_lt)
    unfold forField Loop.keep Loop.shift major
    simpa only [List.map_map, Function.comp_def, ← sub_eq_add_neg] using this
  · have hb : ∀ x ∈ points m (some h), -m.field ≤ x ∧ x ≤ m.field := fun x hx =>
      raw_bound m ho.1.le ho.2.1.le le_rfl hh x ((points_spec m (some h)).2.1 x hx)
    have := rising_filter (points m (some h)) (lower m p)
      (|upper m p (nearest h ((points m (some h)).headD 0) (points m (some h)).tail) -
        lower m p (nearest h ((points m (some h)).headD 0) (points m (some h)).tail)| / 2)
      (fun q => decide (q.1 ≤ h) && decide (q.1 ≥ -h)) m.field (points_spec m (some h)).1 hb (fun x y => hf.lower_lt)
    unfold forField Loop.keep Loop.shift major
    simpa only [List.map_map, Function.comp_def] using this
  · unfold forField Loop.keep Loop.shift major
    simp only [List.map_map, List.filter_map, Function.comp_def]

/-- **C298.** The loop for a field strength is the same seen from the other side: at opposite fields, the paths have opposite flux densities. -/
theorem field_mirror (m : Material K) (f : Option K) (h : K) (l : Loop K) (hl : loop m ⟨f, some h⟩ = .ok l) (x bu bl : K)
    (hu : (x, bu) ∈ l.upper) (hd : (-x, bl) ∈ l.lower) : bl = -bu := by
  unfold loop at hl
  split at hl
  · exact absurd hl (by simp)
  · rename_i p hp
    by_cases hall : (points m (some h)).all (isNumber m p) = true
    · simp only [hall, if_true, Res.ok.injEq] at hl
      subst hl
      obtain ⟨_, _, _, e1⟩ := (mem_forField_upper m p _ h _).1 hu
      obtain ⟨_, _, _, e2⟩ := (mem_forField_lower m p _ h _).1 hd
      simp only at e1 e2
      rw [lower_eq, neg_neg] at e2
      rw [e1, e2]
      ring
    · simp only [hall] at hl
      exact absurd hl (by simp)

theorem mem_raw_peak (m : Material K) (h : K) (hh : 0 < h) : h ∈ rawPoints m (some h) ∧ -h ∈ rawPoints m (some h) := by
  constructor <;>
  · apply List.mem_append_right
    simp [peakPoints, hh]

/-- A peak that is apart stays among the field strengths, with its opposite. -/
theorem tips_mem (m : Material K) (ho : Ordinary m) (h : K) (ha : Apart m h) : h ∈ points m (some h) ∧ -h ∈ points m (some h) := by
  obtain ⟨h0, hr⟩ := ha
  obtain ⟨hc, hcf, -, -⟩ := ho
  have hpos : 0 < h := lt_of_lt_of_le (by positivity) h0
  have hf : 0 < m.field := hc.trans hcf
  simp only [List.mem_cons, List.not_mem_nil, or_false, forall_eq_or_imp, forall_eq] at hr
  obtain ⟨r1, r2, r3, r4⟩ := hr
  have far : ∀ {r : K}, (r = h ∨ 1 / 10 ^ 6 ≤ |r - h|) → (r < h → r + close ≤ h) ∧ (-r < -h → -r + close ≤ -h) := by
    intro r hr
    unfold close
    constructor
    · intro hlt
      rcases hr with e | e
      · exact absurd hlt (by rw [e]; exact lt_irrefl _)
      · rw [abs_of_neg (by linarith)] at e
        linarith
    · intro hlt
      rcases hr with e | e
      · exact absurd hlt (by rw [e]; exact lt_irrefl _)
      · rw [abs_of_pos (by linarith)] at e
        linarith
  have hpow : (1 : K) / 10 ^ 6 = close := rfl
  have c6 : (close : K) * 20 = 2 / 10 ^ 5 := by unfold close; norm_num
  have hclose := close_pos (K := K)
  constructor
  · apply mem_points m _ (mem_raw_peak m h hpos).1
    intro r' hr' hlt
    rcases List.mem_append.1 hr' with e | e
    · simp only [fixedPoints, List.mem_cons, List.not_mem_nil, or_false] at e
      rcases e with e | e | e | e | e | e | e | e | e
      · subst e; linarith
      · subst e; linarith
      · subst e; linarith
      · subst e; exact (far r2).1 hlt
      · subst e; exact (far r1).1 hlt
      · have e' : r' = m.field / 1000 := by rw [e]; ring
        subst e'; exact (far r3).1 hlt
      · subst e; linarith
      · have e' : r' = m.coercive / 10 := by rw [e]; ring
        subst e'; exact (far r4).1 hlt
      · subst e; linarith
    · simp only [Option.map_some, Option.getD_some, peakPoints, if_pos hpos, List.mem_cons, List.not_mem_nil, or_false] at e
      rcases e with e | e | e | e | e | e | e | e | e | e | e | e | e | e <;> subst e <;> linarith
  · apply mem_points m _ (mem_raw_peak m h hpos).2
    intro r' hr' hlt
    rcases List.mem_append.1 hr' with e | e
    · simp only [fixedPoints, List.mem_cons, List.not_mem_nil, or_false] at e
      rcases e with e | e | e | e | e | e | e | e | e
      · subst e; exact (far r1).2 hlt
      · subst e; exact (far r2).2 hlt
      · subst e; linarith
      · subst e; linarith
      · subst e; linarith
      · subst e; linarith
      · have e' : r' = -(m.field / 1000) := by rw [e]; ring
        subst e'; exact (far r3).2 hlt
      · subst e; linarith
      · have e' : r' = -(m.coercive / 10) := by rw [e]; ring
        subst e'; exact (far r4).2 hlt
    · simp only [Option.map_some, Option.getD_some, peakPoints, if_pos hpos, List.mem_cons, List.not_mem_nil, or_false] at e
      rcases e with e | e | e | e | e | e | e | e | e | e | e | e | e | e <;> subst e <;> linarith

/-- **C299.** Up to saturation, the loop for a field strength closes: at that field both paths have one flux density, and at the opposite field
the opposite one. -/
theorem field_closes_partial (m : Material K) (ho : Ordinary m) (f : Option K) (h : K) (hh : h ≤ m.field) (ha : Apart m h) :
    ∃ (l : Loop K) (b : K), loop m ⟨f, some h⟩ = .ok l ∧ 0 < b ∧ (h, b) ∈ l.upper ∧ (h, b) ∈ l.lower ∧ (-h, -b) ∈ l.upper ∧
      (-h, -b) ∈ l.lower := by
  obtain ⟨p, hp, hf, hl⟩ := field_loop m ho f h hh
  obtain ⟨t1, t2⟩ := tips_mem m ho h ha
  have hpos : 0 < h := lt_of_lt_of_le (by positivity) ha.1
  have hg := hf.gap_nonneg (h := h) (by linarith) hh
  refine ⟨_, upper m p h - (upper m p h - lower m p h) / 2, hl, ?_, ?_, ?_, ?_, ?_⟩
  · have := hf.upper_lt (x := -h) (y := h) (by linarith) hh (by linarith)
    rw [lower_eq]
    linarith
  all_goals
    first
      | rw [mem_forField_upper]
      | rw [mem_forField_lower]
    rw [nearest_self h _ t1, abs_of_nonneg hg]
  · exact ⟨t1, le_rfl, by linarith, rfl⟩
  · exact ⟨t1, le_rfl, by linarith, by
      show _ = _
      ring⟩
  · exact ⟨t2, by linarith, le_rfl, by
      show _ = _
      rw [lower_eq]
      ring⟩
  · exact ⟨t2, by linarith, le_rfl, by
      show _ = _
      rw [lower_eq, lower_eq, neg_neg]
      ring⟩

/-- **C299.** The paths of a closed loop do not cross, for a material whose flux density at remanence is reached no slower than the one of
saturation: the upper path is never below the lower one. -/
theorem field_lens_partial (m : Material K) (ho : Ordinary m) (hb : m.coercive / m.remanence ≤ (m.field + m.coercive) / m.flux) (f : Option K)
    (h : K) (hh : h ≤ m.field) (ha : Apart m h) (l : Loop K) (hl : loop m ⟨f, some h⟩ = .ok l) (x bu bl : K) (hu : (x, bu) ∈ l.upper)
    (hd : (x, bl) ∈ l.lower) : bl ≤ bu := by
  obtain ⟨p, hp, hf, hl'⟩ := field_loop m ho f h hh
  rw [hl'] at hl
  simp only [Res.ok.injEq] at hl
  subst hl
  obtain ⟨t1, -⟩ := tips_mem m ho h ha
  have hpos : 0 < h := lt_of_lt_of_le (by positivity) ha.1
  obtain ⟨_, x1, x2, e1⟩ := (mem_forField_upper m p _ h _).1 hu
  obtain ⟨_, _, _, e2⟩ := (mem_forField_lower m p _ h _).1 hd
  simp only at x1 x2 e1 e2
  rw [nearest_self h _ t1, abs_of_nonneg (hf.gap_nonneg (h := h) (by linarith) hh)] at e1 e2
  have b1 : 0 ≤ p.b1 := by
    have h1 := hf.atField
    have h2 := hf.atZero
    have h3 : 0 ≤ p.b1 * m.field := by
      have : p.b1 * m.field = (m.field + m.coercive) / m.flux - m.coercive / m.remanence := by
        rw [← h1, ← h2]
        ring
      rw [this]
      linarith
    by_contra hn
    have := mul_neg_of_neg_of_pos (not_le.1 hn) hf.hH
    linarith
  have := hf.gap_le b1 (x := x) (y := h) (abs_le.2 ⟨by linarith, x1⟩) hh
  linarith

/-- **C298.** The loop at saturation goes through what was measured: saturation on both sides, remanence at no field and no flux density at the
coercive force, on the upper path; its tips are the saturation. -/
theorem saturation_loop (m : Material K) (ho : Ordinary m) (hd : Apart m m.field) (f : Option K) :
    ∃ l : Loop K, loop m ⟨f, some m.field⟩ = .ok l ∧ (m.field, m.flux) ∈ l.upper ∧ (m.field, m.flux) ∈ l.lower ∧
      (-m.field, -m.flux) ∈ l.upper ∧ (-m.field, -m.flux) ∈ l.lower ∧
      (∀ b, (0, b) ∈ l.upper → b = m.remanence) ∧ (∀ b, (-m.coercive, b) ∈ l.upper → b = 0) ∧
      (∀ b, (0, b) ∈ l.lower → b = -m.remanence) ∧ (∀ b, (m.coercive, b) ∈ l.lower → b = 0) := by
  obtain ⟨p, hp, hf, hl⟩ := field_loop m ho f m.field le_rfl
  obtain ⟨t1, t2⟩ := tips_mem m ho m.field hd
  have hpos := hf.hH
  have d0 : |upper m p m.field - lower m p m.field| / 2 = 0 := by
    rw [lower_eq, hf.upper_field, hf.upper_minus]
    simp
  have hu : ∀ q : K × K, q ∈ (forField m p (points m (some m.field)) m.field).upper ↔
      q.1 ∈ points m (some m.field) ∧ q.1 ≤ m.field ∧ -m.field ≤ q.1 ∧ q.2 = upper m p q.1 := by
    intro q
    rw [mem_forField_upper, nearest_self _ _ t1, d0, sub_zero]
  have hw : ∀ q : K × K, q ∈ (forField m p (points m (some m.field)) m.field).lower ↔
      q.1 ∈ points m (some m.field) ∧ q.1 ≤ m.field ∧ -m.field ≤ q.1 ∧ q.2 = lower m p q.1 := by
    intro q
    rw [mem_forField_lower, nearest_self _ _ t1, d0, add_zero]
  refine ⟨_, hl, ?_, ?_, ?_, ?_, ?_, ?_, ?_, ?_⟩
  · exact (hu _).2 ⟨t1, le_rfl, by linarith, hf.upper_field.symm⟩
  · exact (hw _).2 ⟨t1, le_rfl, by linarith, by
      show _ = lower m p m.field
      rw [lower_eq, hf.upper_minus, neg_neg]⟩
  · exact (hu _).2 ⟨t2, by linarith, le_rfl, hf.upper_minus.symm⟩
  · exact (hw _).2 ⟨t2, by linarith, le_rfl, by
      show _ = lower m p (-m.field)
      rw [lower_eq, neg_neg, hf.upper_field]⟩
  · intro b hb
    refine ((hu _).1 hb).2.2.2.trans ?_
    exact hf.upper_zero
  · intro b hb
    refine ((hu _).1 hb).2.2.2.trans ?_
    exact upper_coercive m p
  · intro b hb
    refine ((hw _).1 hb).2.2.2.trans ?_
    show lower m p 0 = _
    rw [lower_eq, neg_zero, hf.upper_zero]
  · intro b hb
    refine ((hw _).1 hb).2.2.2.trans ?_
    show lower m p m.coercive = _
    rw [lower_eq, upper_coercive, neg_zero]

/-! ## The loop for a flux density -/

theorem shift_shift (l : Loop K) (a b : K) : (l.shift a).shift b = l.shift (a + b) := by
  unfold Loop.shift
  simp only [List.map_map, Loop.mk.injEq]
  constructor
  · apply List.map_congr_left
    intro q _
    simp only [Function.comp_apply, Prod.mk.injEq, true_and]
    ring
  · apply List.map_congr_left
    intro q _
    simp only [Function.comp_apply, Prod.mk.injEq, true_and]
    ring

theorem shift_zero (l : Loop K) : l.shift 0 = l := by
  unfold Loop.shift
  simp

/-- Searching only moves the paths towards each other. -/
theorem search_shift (b : K) (n made : ℕ) (t d : K) (l : Loop K) : ∃ s, search b n made t d l = l.shift s := by
  induction n generalizing made t d l with
  | zero => exact ⟨0, (shift_zero l).symm⟩
  | succ n ih =>
    unfold search
    split_ifs with c
    · obtain ⟨s, hs⟩ := ih (made + 1) (t + ((made + 1 : ℕ) : K) * (1 / 10000)) (missing l b) (l.shift (missing l b / 16))
      exact ⟨_, hs.trans (shift_shift l _ _)⟩
    · exact ⟨0, (shift_zero l).symm⟩

theorem flux_loop (m : Material K) (ho : Ordinary m) (b : K) :
    ∃ p s, Fitted m p ∧ loop m ⟨some b, none⟩ =
      .ok (((major m p (points m none)).shift s).keep fun q => decide (q.2 ≤ b) && decide (q.2 ≥ -b)) := by
  obtain ⟨p, hp, hf⟩ := majorLoop_fitted m ho.1 ho.2.1 ho.2.2.1 ho.2.2.2
  obtain ⟨s, hs⟩ := search_shift b 10 0 (1 / 1000) b (major m p (points m none))
  refine ⟨p, s, hf, ?_⟩
  unfold loop
  rw [hp]
  have : (points m none).all (isNumber m p) = true := by
    rw [List.all_eq_true]
    intro x hx
    obtain ⟨h1, h2⟩ := raw_bound_none m ho.1.le ho.2.1.le x ((points_spec m none).2.1 x hx)
    exact hf.isNumber h1 h2
  simp only [this, if_true]
  unfold forFlux
  rw [hs]

/-- **C300.** A loop for a flux density is always answered, no point of it has more flux density than asked for, it is within saturation, and along
each path the flux density rises with the field. -/
theorem flux_within (m : Material K) (ho : Ordinary m) (b : K) :
    ∃ l : Loop K, loop m ⟨some b, none⟩ = .ok l ∧ (∀ q ∈ l.upper, -b ≤ q.2 ∧ q.2 ≤ b) ∧ (∀ q ∈ l.lower, -b ≤ q.2 ∧ q.2 ≤ b) ∧
      Within m.field l.upper ∧ Within m.field l.lower ∧ Rising l.upper ∧ Rising l.lower := by
  obtain ⟨p, s, hf, hl⟩ := flux_loop m ho b
  have hb : ∀ x ∈ points m none, -m.field ≤ x ∧ x ≤ m.field := fun x hx =>
    raw_bound_none m ho.1.le ho.2.1.le x ((points_spec m none).2.1 x hx)
  refine ⟨_, hl, ?_, ?_, ?_, ?_, ?_, ?_⟩
  · intro q hq
    unfold Loop.keep at hq
    have := (List.mem_filter.1 hq).2
    simp only [Bool.and_eq_true, decide_eq_true_iff] at this
    exact ⟨this.2, this.1⟩
  · intro q hq
    unfold Loop.keep at hq
    have := (List.mem_filter.1 hq).2
    simp only [Bool.and_eq_true, decide_eq_true_iff] at this
    exact ⟨this.2, this.1⟩
  · intro q hq
    unfold Loop.keep Loop.shift major at hq
    have := (List.mem_filter.1 hq).1
    simp only [List.map_map, List.mem_map, Function.comp_apply] at this
    obtain ⟨x, hx, e⟩ := this
    rw [← e]
    exact hb x hx
  · intro q hq
    unfold Loop.keep Loop.shift major at hq
    have := (List.mem_filter.1 hq).1
    simp only [List.map_map, List.mem_map, Function.comp_apply] at this
    obtain ⟨x, hx, e⟩ := this
    rw [← e]
    exact hb x hx
  · have := rising_filter (points m none) (upper m p) (-s) (fun q => decide (q.2 ≤ b) && decide (q.2 ≥ -b)) m.field (points_spec m none).1 hb
      (fun x y => hf.upper_lt)
    unfold Loop.keep Loop.shift major
    simpa only [List.map_map, Function.comp_def, ← sub_eq_add_neg] using this
  · have := rising_filter (points m none) (lower m p) s (fun q => decide (q.2 ≤ b) && decide (q.2 ≥ -b)) m.field (points_spec m none).1 hb
      (fun x y => hf.lower_lt)
    unfold Loop.keep Loop.shift major
    simpa only [List.map_map, Function.comp_def] using this

/-- **C298.** The loop for a flux density is the same seen from the other side. -/
theorem flux_mirror (m : Material K) (ho : Ordinary m) (b : K) (l : Loop K) (hl : loop m ⟨some b, none⟩ = .ok l) (x bu bl : K)
    (hu : (x, bu) ∈ l.upper) (hd : (-x, bl) ∈ l.lower) : bl = -bu := by
  obtain ⟨p, s, hf, hl'⟩ := flux_loop m ho b
  rw [hl'] at hl
  simp only [Res.ok.injEq] at hl
  subst hl
  unfold Loop.keep Loop.shift major at hu hd
  have h1 := (List.mem_filter.1 hu).1
  have h2 := (List.mem_filter.1 hd).1
  simp only [List.map_map, List.mem_map, Function.comp_apply, Prod.mk.injEq] at h1 h2
  obtain ⟨x1, -, e1, e2⟩ := h1
  obtain ⟨x2, -, e3, e4⟩ := h2
  subst e1
  subst e3
  rw [← e2, ← e4, lower_eq, neg_neg]
  ring

/-! ## The amplitude permeability -/

/-- The slope of the first points of a path that rises is positive. -/
theorem firstSlope_pos (mu0 : K) (hmu : 0 < mu0) (l : List (K × K)) (h : Rising l) (a : K) (ha : firstSlope mu0 l = some a) : 0 < a := by
  match l, ha with
  | x :: y :: r, ha =>
    simp only [firstSlope] at ha
    split_ifs at ha with c
    have hr := (List.pairwise_cons.1 h).1 y List.mem_cons_self
    simp only [Option.some.injEq] at ha
    rw [← ha, abs_of_pos (sub_pos.2 hr.1), abs_of_pos (sub_pos.2 hr.2)]
    exact div_pos (div_pos (sub_pos.2 hr.2) (sub_pos.2 hr.1)) hmu

/-- **C301.** Without a peak of field strength nor of flux density the amplitude permeability is refused, and it is only refused then. -/
theorem amplitude_needs_peak (mu0 : K) (m : Material K) (q : Asked K) : amplitude mu0 m q = .throws ↔ q.field = none ∧ q.flux = none := by
  unfold amplitude
  by_cases c : q.field = none ∧ q.flux = none
  · rw [if_pos c]
    exact ⟨fun _ => c, fun _ => rfl⟩
  · rw [if_neg c]
    refine ⟨fun h => ?_, fun h => absurd h c⟩
    exfalso
    have never : ∀ q' : Asked K, loop m q' ≠ .throws := by
      intro q' e
      unfold loop at e
      split at e
      · exact absurd e (by simp)
      · simp only at e
        split_ifs at e
        split at e <;> exact absurd e (by simp)
    cases e : loop m ⟨if q.field.isSome then none else q.flux, q.field⟩ with
    | ok l => rw [e] at h; exact absurd h (by simp)
    | throws => exact never _ e
    | notFinite => rw [e] at h; exact absurd h (by simp)

/-- **C301.** With both peaks, the one of field strength is used. -/
theorem amplitude_field_first (mu0 : K) (m : Material K) (b : Option K) (h : K) :
    amplitude mu0 m ⟨b, some h⟩ = amplitude mu0 m ⟨none, some h⟩ := by
  unfold amplitude
  simp

/-- **C301.** An amplitude permeability is positive, for a field strength up to saturation or any flux density. -/
theorem amplitude_pos (mu0 : K) (hmu : 0 < mu0) (m : Material K) (ho : Ordinary m) (q : Asked K) (hq : ∀ h, q.field = some h → h ≤ m.field)
    (a : K) (ha : amplitude mu0 m q = .ok (some a)) : 0 < a := by
  obtain ⟨b, f⟩ := q
  cases f with
  | some h =>
    obtain ⟨l, hl, -, -, hr, -⟩ := field_rises m ho none h (hq h rfl)
    unfold amplitude at ha
    rw [if_neg (by simp)] at ha
    simp only [Option.isSome_some, if_true, hl, Res.ok.injEq] at ha
    exact firstSlope_pos mu0 hmu _ hr a ha
  | none =>
    cases b with
    | none =>
      unfold amplitude at ha
      rw [if_pos ⟨rfl, rfl⟩] at ha
      exact absurd ha (by simp)
    | some b =>
      obtain ⟨l, hl, -, -, -, -, hr, -⟩ := flux_within m ho b
      unfold amplitude at ha
      rw [if_neg (by simp)] at ha
      simp only [Option.isSome_none, Bool.false_eq_true, if_false, hl, Res.ok.injEq] at ha
      exact firstSlope_pos mu0 hmu _ hr a ha

/-- The field strengths are well apart, but for the end that may be put back. -/
theorem points_init (m : Material K) (h : Option K) : ∃ init rest, points m h = init ++ rest ∧ init.Pairwise (fun x y => x + close ≤ y) ∧
    ∀ x ∈ rest, x = m.field := by
  unfold points
  have hs : ((rawPoints m h).insertionSort (· ≤ ·)).Pairwise (· ≤ ·) := List.pairwise_insertionSort _ _
  have hmem : ∀ x, x ∈ (rawPoints m h).insertionSort (· ≤ ·) ↔ x ∈ rawPoints m h := fun x => List.mem_insertionSort _
  cases hl : (rawPoints m h).insertionSort (· ≤ ·) with
  | nil => exact absurd hl (sort_ne_nil m h)
  | cons a l =>
    rw [hl] at hs hmem
    have hf : a ≤ -m.field := by
      have : -m.field ∈ a :: l := (hmem _).2 (by simp [rawPoints, fixedPoints])
      rcases List.mem_cons.1 this with e | e
      · exact e.ge
      · exact (List.pairwise_cons.1 hs).1 _ e
    have e1 : boundedBelow m.field (unique (a :: l)) = a :: uniqueFrom a l := by
      unfold boundedBelow unique
      rw [if_neg (by simpa using hf)]
    rw [e1]
    unfold boundedAbove
    split_ifs with c
    · exact ⟨_, [m.field], rfl, uniqueFrom_sorted a l hs, by simp⟩
    · exact ⟨_, [], (List.append_nil _).symm, uniqueFrom_sorted a l hs, by simp⟩

/-- The first of a list that rises, if it is the least, and the one after it. -/
theorem head_least (l : List K) (hlt : l.Pairwise (· < ·)) (x k : K) (hx : x ∈ l) (hle : ∀ y ∈ l, x ≤ y) (hk : k ∈ l) (hxk : x < k) :
    ∃ y r, l = x :: y :: r ∧ y ≤ k := by
  match l, hlt, hx, hk with
  | a :: r, hlt, hx, hk =>
    have ha : a = x := by
      rcases List.mem_cons.1 hx with e | e
      · exact e.symm
      · have := (List.pairwise_cons.1 hlt).1 x e
        have := hle a List.mem_cons_self
        exact absurd this (not_le.2 ‹_›)
    subst ha
    rcases List.mem_cons.1 hk with e | e
    · exact absurd hxk (by rw [e]; exact lt_irrefl _)
    · match r, e, hlt with
      | y :: r', e, hlt =>
        refine ⟨y, r', rfl, ?_⟩
        rcases List.mem_cons.1 e with e | e
        · exact e.ge
        · exact ((List.pairwise_cons.1 (List.pairwise_cons.1 hlt).2).1 k e).le

/-- **C301.** Up to saturation, the amplitude permeability for a field strength is the slope of the upper path at its lower tip, over no more than a
twentieth of the field, in units of the permeability of vacuum. -/
theorem amplitude_tip (mu0 : K) (m : Material K) (ho : Ordinary m) (b : Option K) (h : K) (hh : h ≤ m.field) (ha : Apart m h) :
    ∃ (l : Loop K) (x b₁ b₂ : K), loop m ⟨none, some h⟩ = .ok l ∧ (-h, b₁) ∈ l.upper ∧ (x, b₂) ∈ l.upper ∧ -h < x ∧ x ≤ -(95 / 100 * h) ∧
      (∀ q ∈ l.upper, q.1 ≤ -h ∨ x ≤ q.1) ∧ amplitude mu0 m ⟨b, some h⟩ = .ok (some ((b₂ - b₁) / (x + h) / mu0)) := by
  obtain ⟨p, hp, hf, hl⟩ := field_loop m ho none h hh
  obtain ⟨t1, t2⟩ := tips_mem m ho h ha
  have hpos : 0 < h := lt_of_lt_of_le (by positivity) ha.1
  have hc := close_pos (K := K)
  have c6 : (close : K) * 20 = 2 / 10 ^ 5 := by unfold close; norm_num
  have h20 := ha.1
  -- a field strength next to the tip
  obtain ⟨k, hk, k1, k2⟩ := (points_spec m (some h)).2.2 (-h * (95 / 100)) (by
    apply List.mem_append_right
    simp [peakPoints, hpos])
  have k3 : -h < k := by linarith
  -- the fields of the path
  have hfst : (forField m p (points m (some h)) h).upper.map Prod.fst =
      (points m (some h)).filter (fun x => decide (x ≤ h) && decide (x ≥ -h)) := by
    unfold forField Loop.keep Loop.shift major
    simp only [List.map_map, List.filter_map, Function.comp_def, List.map_id']
  have hflt : ((points m (some h)).filter (fun x => decide (x ≤ h) && decide (x ≥ -h))).Pairwise (· < ·) :=
    (points_spec m (some h)).1.filter _
  obtain ⟨y, r, e, hy⟩ := head_least _ hflt (-h) k (List.mem_filter.2 ⟨t2, by simp; linarith⟩)
    (by
      intro y hy
      have := (List.mem_filter.1 hy).2
      simp only [Bool.and_eq_true, decide_eq_true_iff] at this
      exact this.2)
    (List.mem_filter.2 ⟨hk, by simp; constructor <;> linarith⟩) k3
  -- they are apart
  have hfar : -h + close ≤ y := by
    obtain ⟨init, rest, e1, e2, e3⟩ := points_init m (some h)
    have hym : y ∈ points m (some h) := (List.mem_filter.1 (show y ∈ (points m (some h)).filter _ by rw [e]; simp)).1
    have hyh : -h < y := by
      rw [e] at hflt
      exact (List.pairwise_cons.1 hflt).1 y List.mem_cons_self
    have hyf : y ≠ m.field := by
      intro hyf
      have := hf.hH
      linarith
    have hhf : -h ≠ m.field := by
      intro hhf
      have := hf.hH
      linarith
    rw [e1] at hym t2
    have m1 : y ∈ init := by
      rcases List.mem_append.1 hym with e' | e'
      · exact e'
      · exact absurd (e3 _ e') hyf
    have m2 : -h ∈ init := by
      rcases List.mem_append.1 t2 with e' | e'
      · exact e'
      · exact absurd (e3 _ e') hhf
    obtain ⟨i, hi, ei⟩ := List.getElem_of_mem m2
    obtain ⟨j, hj, ej⟩ := List.getElem_of_mem m1
    rcases lt_trichotomy i j with c | c | c
    · have := List.pairwise_iff_getElem.1 e2 i j hi hj c
      rw [ei, ej] at this
      exact this
    · subst c
      rw [ei] at ej
      linarith
    · have := List.pairwise_iff_getElem.1 e2 j i hj hi c
      rw [ei, ej] at this
      linarith
  -- the path
  rw [← hfst] at e
  cases hu : (forField m p (points m (some h)) h).upper with
  | nil => rw [hu] at e; exact absurd e (by simp)
  | cons q₁ rest =>
    cases hrest : rest with
    | nil => rw [hu, hrest] at e; exact absurd e (by simp)
    | cons q₂ rest' =>
      rw [hrest] at hu
      rw [hu] at e
      simp only [List.map_cons, List.cons.injEq] at e
      obtain ⟨f1, f2, f3⟩ := e
      have n1 : (-h, q₁.2) ∈ (forField m p (points m (some h)) h).upper := by
        rw [hu, ← f1]
        exact List.mem_cons_self
      have n2 : (y, q₂.2) ∈ (forField m p (points m (some h)) h).upper := by
        rw [hu, ← f2]
        exact List.mem_cons_of_mem _ List.mem_cons_self
      have hlt2 : q₁.2 < q₂.2 := by
        obtain ⟨-, -, -, g1⟩ := (mem_forField_upper m p _ h _).1 n1
        obtain ⟨-, -, -, g2⟩ := (mem_forField_upper m p _ h _).1 n2
        simp only at g1 g2
        rw [g1, g2]
        have := hf.upper_lt (x := -h) (y := y) (by linarith) (by have := hf.hH; linarith) (by linarith)
        linarith
      refine ⟨_, y, q₁.2, q₂.2, hl, n1, n2, by linarith, by linarith, ?_, ?_⟩
      · intro q hq
        have : q.1 ∈ -h :: y :: r := by
          have hq' : q.1 ∈ (forField m p (points m (some h)) h).upper.map Prod.fst := List.mem_map_of_mem hq
          rw [hu] at hq'
          simpa only [List.map_cons, f1, f2, f3] using hq'
        rcases List.mem_cons.1 this with e' | e'
        · exact Or.inl e'.le
        · rcases List.mem_cons.1 e' with e' | e'
          · exact Or.inr e'.ge
          · right
            have : (-h :: y :: r).Pairwise (· < ·) := by
              have hh' := hflt
              rw [← hfst, hu] at hh'
              simpa only [List.map_cons, f1, f2, f3] using hh'
            exact ((List.pairwise_cons.1 (List.pairwise_cons.1 this).2).1 _ e').le
      · unfold amplitude
        rw [if_neg (by simp)]
        simp only [Option.isSome_some, if_true, hl]
        rw [hu]
        simp only [firstSlope]
        have e1 : q₂.1 - q₁.1 = y + h := by rw [f1, f2]; ring
        rw [e1, abs_of_pos (show 0 < y + h by linarith), if_neg (by
          have : (1 : K) / 10 ^ 12 < close := by unfold close; norm_num
          linarith), abs_of_pos (sub_pos.2 hlt2)]

/-! ## Cases -/

/-- A ferrite. -/
def ferrite : Material ℚ := ⟨1200, 39 / 100, 23, 1 / 10⟩

/-- The permeability of vacuum. -/
def vacuum : ℚ := 125663706212 / 10 ^ 17

/-- The loop of an outcome, for the cases below. -/
def got (r : Res (Loop ℚ)) : Loop ℚ :=
  match r with
  | .ok l => l
  | _ => ⟨[], []⟩

/-- The value of an outcome, for the cases below. -/
def value (r : Res (Option ℚ)) : ℚ :=
  match r with
  | .ok (some a) => a
  | _ => 0

/-- The flux density of a path at a field, for the cases below. -/
def fluxAt (l : List (ℚ × ℚ)) (x : ℚ) : ℚ := ((l.find? (fun q => q.1 == x)).map Prod.snd).getD 0

/-- Case of the theorems on ordinary materials and peaks that are apart. -/
example : Ordinary ferrite ∧ Apart ferrite 100 ∧ Apart ferrite ferrite.field := by
  unfold Ordinary Apart ferrite
  simp only [List.mem_cons, List.not_mem_nil, or_false, forall_eq_or_imp, forall_eq]
  refine ⟨?_, ?_, ?_⟩ <;> decide +kernel

/-- Case of `field_lens_partial`. -/
example : ferrite.coercive / ferrite.remanence ≤ (ferrite.field + ferrite.coercive) / ferrite.flux := by decide +kernel

/-- Case of `field_mirror` and `field_lens_partial`: a point of each path. -/
example : ∃ l : Loop ℚ, loop ferrite ⟨none, some 100⟩ = .ok l ∧ l.upper.length = 21 ∧ l.lower.length = 21 := by
  exact ⟨got (loop ferrite ⟨none, some 100⟩), by decide +kernel, by decide +kernel, by decide +kernel⟩

/-- Case of `amplitude_pos`. -/
example : ∃ a, amplitude vacuum ferrite ⟨some (1 / 10), none⟩ = .ok (some a) ∧ 3545 < a ∧ a < 3546 :=
  ⟨value (amplitude vacuum ferrite ⟨some (1 / 10), none⟩), by decide +kernel, by decide +kernel, by decide +kernel⟩

/-! ## Where the loop is not what was asked for -/

/-- **C299.** Beyond saturation the loop does not close: at the field that was asked for, the upper path is below the lower one. -/
theorem beyond_saturation_crosses : ∃ (l : Loop ℚ) (bu bl : ℚ), loop ferrite ⟨none, some 1300⟩ = .ok l ∧ (1300, bu) ∈ l.upper ∧ (1300, bl) ∈ l.lower ∧
    bu < bl :=
  ⟨got (loop ferrite ⟨none, some 1300⟩), fluxAt (got (loop ferrite ⟨none, some 1300⟩)).upper 1300, fluxAt (got (loop ferrite ⟨none, some 1300⟩)).lower 1300,
    by decide +kernel, by decide +kernel, by decide +kernel, by decide +kernel⟩

/-- **C300.** A loop for a flux density need not reach it, nor close: asked for 0.3 T, no point of this loop has more than 0.12 T, on either side, and
its paths have different flux densities at both ends. -/
theorem flux_not_reached : ∃ l : Loop ℚ, loop ferrite ⟨some (3 / 10), none⟩ = .ok l ∧ (∀ q ∈ l.upper ++ l.lower, |q.2| < 12 / 100) ∧
    l.upper.getLast? ≠ l.lower.getLast? ∧ l.upper.head? ≠ l.lower.head? :=
  ⟨got (loop ferrite ⟨some (3 / 10), none⟩), by decide +kernel, by decide +kernel, by decide +kernel, by decide +kernel⟩

/-- **C301.** Flux densities of 0.1 T and of 0.2 T have the same amplitude permeability. -/
theorem flux_same_amplitude : amplitude vacuum ferrite ⟨some (1 / 10), none⟩ = amplitude vacuum ferrite ⟨some (2 / 10), none⟩ := by decide +kernel

/-- **C301.** The amplitude permeability is not the slope from tip to tip: at 100 A/m that is 1886, and 1105 is answered. -/
theorem not_average_slope : ∃ (l : Loop ℚ) (b a : ℚ), loop ferrite ⟨none, some 100⟩ = .ok l ∧ (100, b) ∈ l.upper ∧ (-100, -b) ∈ l.upper ∧
    amplitude vacuum ferrite ⟨none, some 100⟩ = .ok (some a) ∧ a < 1106 ∧ 1886 < b / 100 / vacuum :=
  ⟨got (loop ferrite ⟨none, some 100⟩), fluxAt (got (loop ferrite ⟨none, some 100⟩)).upper 100, value (amplitude vacuum ferrite ⟨none, some 100⟩),
    by decide +kernel, by decide +kernel, by decide +kernel, by decide +kernel, by decide +kernel, by decide +kernel⟩

/-- A material whose remanence is low for its coercive force. -/
def lean : Material ℚ := ⟨1000, 1, 100, 1 / 20⟩

/-- **C299.** The condition of `field_lens_partial` is needed: the loop of this ordinary material crosses. -/
theorem low_remanence_crosses : Ordinary lean ∧ ∃ (l : Loop ℚ) (bu bl : ℚ), loop lean ⟨none, some 90⟩ = .ok l ∧ (0, bu) ∈ l.upper ∧ (0, bl) ∈ l.lower ∧
    bu < bl :=
  ⟨by unfold Ordinary lean; decide +kernel, got (loop lean ⟨none, some 90⟩), fluxAt (got (loop lean ⟨none, some 90⟩)).upper 0, fluxAt (got (loop lean ⟨none, some 90⟩)).lower 0,
    by decide +kernel, by decide +kernel, by decide +kernel, by decide +kernel⟩

end Verif.Hysteresis
