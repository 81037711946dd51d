import Mathlib.NumberTheory.ZetaValues
import Mathlib.Analysis.SpecialFunctions.Trigonometric.Bounds
import Mathlib.Analysis.SpecialFunctions.Trigonometric.DerivHyp
import Verif.Impedance.Props

/-!
# Properties of the permittivity and of the attenuation by the dimensions of a core (C167)
-/

set_option linter.unusedSimpArgs false
set_option linter.unusedVariables false

namespace Verif.Impedance

open Complex

/-! ## Permittivity between the points of its table -/

instance : Std.Total before := ⟨fun p q => by
  unfold before
  rcases lt_trichotomy p.1 q.1 with h | h | h
  · left; left; exact h
  · rcases le_total p.2 q.2 with h2 | h2
    · left; right; exact ⟨h, h2⟩
    · right; right; exact ⟨h.symm, h2⟩
  · right; left; exact h⟩

instance : IsTrans (ℝ × ℝ) before := ⟨fun p q r h1 h2 => by
  unfold before at *
  rcases h1 with h1 | ⟨h1, h1'⟩ <;> rcases h2 with h2 | ⟨h2, h2'⟩
  · left; exact h1.trans h2
  · left; rw [← h2]; exact h1
  · left; rw [h1]; exact h2
  · right; exact ⟨h1.trans h2, h1'.trans h2'⟩⟩

instance : Std.Antisymm before := ⟨fun p q h1 h2 => by
  unfold before at *
  rcases h1 with h1 | ⟨h1, h1'⟩ <;> rcases h2 with h2 | ⟨h2, h2'⟩
  · exact absurd (h1.trans h2) (lt_irrefl _)
  · rw [h2] at h1; exact absurd h1 (lt_irrefl _)
  · rw [h1] at h2; exact absurd h2 (lt_irrefl _)
  · exact Prod.ext h1 (le_antisymm h1' h2')⟩

theorem sortTable_perm (l : List (ℝ × ℝ)) : (sortTable l).Perm l := by
  classical
  exact List.perm_insertionSort _ l

theorem sortTable_sorted (l : List (ℝ × ℝ)) : (sortTable l).Pairwise before := by
  classical
  exact List.pairwise_insertionSort _ l

theorem mem_tableOf {l : List (Option ℝ × ℝ)} {f v : ℝ} : (f, v) ∈ tableOf l ↔ (some f, v) ∈ l ∧ 0 < v := by
  unfold tableOf
  rw [List.mem_filterMap]
  constructor
  · rintro ⟨p, hp, h⟩
    cases h1 : p.1 with
    | none => rw [h1] at h; simp at h
    | some g =>
      rw [h1] at h
      simp only at h
      by_cases h2 : 0 < p.2
      · rw [if_pos h2] at h
        simp only [Option.some.injEq, Prod.mk.injEq] at h
        obtain ⟨rfl, rfl⟩ := h
        rw [← h1]
        exact ⟨hp, h2⟩
      · rw [if_neg h2] at h; simp at h
  · rintro ⟨h1, h2⟩
    exact ⟨_, h1, by simp [h2]⟩

/-- **C167**: the order in which the points are written does not matter. -/
theorem permittivity_order {l l' : List (Option ℝ × ℝ)} (h : l.Perm l') (hne : tableOf l ≠ []) (f : ℝ) :
    permittivityAt (.points l) f = permittivityAt (.points l') f := by
  have hp : (tableOf l).Perm (tableOf l') := h.filterMap _
  have hs : sortTable (tableOf l) = sortTable (tableOf l') :=
    List.Perm.eq_of_pairwise' (sortTable_sorted _) (sortTable_sorted _)
      (((sortTable_perm _).trans hp).trans (sortTable_perm _).symm)
  unfold permittivityAt
  simp only [hs]
  cases hq : sortTable (tableOf l') with
  | nil =>
    exfalso
    rw [hq] at hs
    have := sortTable_perm (tableOf l)
    rw [hs] at this
    exact hne this.symm.eq_nil
  | cons p rest => rfl

/-- What the value at a frequency has to be: that of the first or of the last point beyond them, and a straight line between
neighbours when both are drawn in logarithms. -/
def Interpolated (l : List (Option ℝ × ℝ)) (f v : ℝ) : Prop :=
  (∃ g, (some g, v) ∈ l ∧ 0 < v ∧ f ≤ g ∧ ∀ g' v', (some g', v') ∈ l → 0 < v' → g ≤ g') ∨
  (∃ g, (some g, v) ∈ l ∧ 0 < v ∧ g ≤ f ∧ ∀ g' v', (some g', v') ∈ l → 0 < v' → g' ≤ g) ∨
  (∃ g h x y, (some g, x) ∈ l ∧ (some h, y) ∈ l ∧ 0 < x ∧ 0 < y ∧ g < h ∧ g ≤ f ∧ f ≤ h ∧
    (∀ g' v', (some g', v') ∈ l → 0 < v' → g' ≤ g ∨ h ≤ g') ∧ 0 < v ∧
    (Real.log v - Real.log x) * (Real.log h - Real.log g) = (Real.log y - Real.log x) * (Real.log f - Real.log g))

theorem between_spec {p q : ℝ × ℝ} {f : ℝ} (hp : 0 < p.1) (hpq : p.1 < q.1) (hf : 0 < f) (h1 : 0 < p.2) (h2 : 0 < q.2) :
    ∃ v, between p q f = some v ∧ 0 < v ∧
      (Real.log v - Real.log p.2) * (Real.log q.1 - Real.log p.1) = (Real.log q.2 - Real.log p.2) * (Real.log f - Real.log p.1) := by
  unfold between
  have hq : 0 < q.1 := hp.trans hpq
  rw [if_neg (by push Not; exact ⟨hp, hq, hpq.ne⟩)]
  have hpw : 0 < (q.2 / p.2) ^ (Real.log (f / p.1) / Real.log (q.1 / p.1)) := Real.rpow_pos_of_pos (div_pos h2 h1) _
  refine ⟨_, rfl, mul_pos h1 hpw, ?_⟩
  rw [Real.log_mul h1.ne' hpw.ne', Real.log_rpow (div_pos h2 h1), Real.log_div h2.ne' h1.ne', Real.log_div hf.ne' hp.ne',
    Real.log_div hq.ne' hp.ne']
  have hne : Real.log q.1 - Real.log p.1 ≠ 0 := by
    have := Real.log_lt_log hp hpq
    linarith
  field_simp
  ring

theorem searchTable_spec {f : ℝ} (hf : 0 < f) : ∀ (rest : List (ℝ × ℝ)) (p : ℝ × ℝ), (p :: rest).Pairwise before →
    (∀ q ∈ p :: rest, 0 < q.1 ∧ 0 < q.2) → p.1 < f → f < ((p :: rest).getLast (by simp)).1 →
    ∃ a b v, a ∈ p :: rest ∧ b ∈ p :: rest ∧ a.1 < b.1 ∧ a.1 ≤ f ∧ f ≤ b.1 ∧ (∀ q ∈ p :: rest, q.1 ≤ a.1 ∨ b.1 ≤ q.1) ∧
      searchTable f p rest = some v ∧ 0 < v ∧
      (Real.log v - Real.log a.2) * (Real.log b.1 - Real.log a.1) = (Real.log b.2 - Real.log a.2) * (Real.log f - Real.log a.1) := by
  intro rest
  induction rest with
  | nil => intro p _ _ h1 h2; simp at h2; exact absurd (h1.trans h2) (lt_irrefl _)
  | cons q rest ih =>
    intro p hs hpos h1 h2
    unfold searchTable
    have hs' := hs
    rw [List.pairwise_cons] at hs'
    by_cases hq : f ≤ q.1
    · rw [if_pos ⟨h1.le, hq⟩]
      have hpq : p.1 < q.1 := lt_of_lt_of_le h1 hq
      obtain ⟨v, e1, e2, e3⟩ := between_spec (hpos p (by simp)).1 hpq hf (hpos p (by simp)).2 (hpos q (by simp)).2
      refine ⟨p, q, v, by simp, by simp, hpq, h1.le, hq, ?_, e1, e2, e3⟩
      intro r hr
      rcases List.mem_cons.mp hr with rfl | hr
      · left; exact le_rfl
      rcases List.mem_cons.mp hr with rfl | hr
      · right; exact le_rfl
      right
      rcases (List.pairwise_cons.mp hs'.2).1 r hr with h | ⟨h, _⟩
      · exact h.le
      · exact h.le
    · push Not at hq
      rw [if_neg (by push Not; intro _; exact hq)]
      have h2' : f < ((q :: rest).getLast (by simp)).1 := by
        rw [List.getLast_cons (by simp)] at h2; exact h2
      obtain ⟨a, b, v, m1, m2, e1, e2, e3, e4, e5, e6, e7⟩ := ih q hs'.2 (fun r hr => hpos r (by simp [List.mem_cons.mp hr])) hq h2'
      refine ⟨a, b, v, List.mem_cons_of_mem _ m1, List.mem_cons_of_mem _ m2, e1, e2, e3, ?_, e5, e6, e7⟩
      intro r hr
      rcases List.mem_cons.mp hr with rfl | hr
      · have hpq : r.1 ≤ q.1 := by rcases hs'.1 q (by simp) with h | ⟨h, _⟩; exacts [h.le, h.le]
        rcases e4 q (by simp) with h | h
        · left; exact hpq.trans h
        · exfalso
          linarith
      · exact e4 r hr

/-- **C167**: of a table of points at positive frequencies, the value at a frequency is that of the end points beyond them, and a straight
line in logarithms between neighbours. -/
theorem permittivity_interpolates {l : List (Option ℝ × ℝ)} {f : ℝ} (hf : 0 < f) (hne : tableOf l ≠ [])
    (hpos : ∀ g v, (some g, v) ∈ l → 0 < v → 0 < g) : ∃ v, permittivityAt (.points l) f = some v ∧ Interpolated l f v := by
  unfold permittivityAt
  simp only
  have hperm := sortTable_perm (tableOf l)
  have hsort := sortTable_sorted (tableOf l)
  cases hq : sortTable (tableOf l) with
  | nil => rw [hq] at hperm; exact absurd hperm.symm.eq_nil hne
  | cons p rest =>
    rw [hq] at hperm hsort
    simp only
    have hmem : ∀ q, q ∈ p :: rest ↔ (some q.1, q.2) ∈ l ∧ 0 < q.2 := fun q => by
      rw [hperm.mem_iff]; exact mem_tableOf (f := q.1) (v := q.2)
    by_cases h1 : f ≤ p.1
    · rw [if_pos h1]
      refine ⟨_, rfl, .inl ⟨p.1, ((hmem p).mp (by simp)).1, ((hmem p).mp (by simp)).2, h1, ?_⟩⟩
      intro g' v' hg hv
      have := (hmem (g', v')).mpr ⟨hg, hv⟩
      rcases List.mem_cons.mp this with h | h
      · rw [← h]
      · rcases (List.pairwise_cons.mp hsort).1 _ h with h | ⟨h, _⟩
        · exact h.le
        · exact h.le
    · rw [if_neg h1]
      push Not at h1
      have hlast := List.getLast_mem (l := p :: rest) (by simp)
      by_cases h2 : ((p :: rest).getLast (by simp)).1 ≤ f
      · rw [if_pos h2]
        refine ⟨_, rfl, .inr (.inl ⟨_, ((hmem _).mp hlast).1, ((hmem _).mp hlast).2, h2, ?_⟩)⟩
        intro g' v' hg hv
        have hin := (hmem (g', v')).mpr ⟨hg, hv⟩
        have hd := List.dropLast_append_getLast (l := p :: rest) (by simp)
        rw [← hd] at hin hsort
        rcases List.mem_append.mp hin with h | h
        · rcases (List.pairwise_append.mp hsort).2.2 _ h _ (List.mem_singleton.mpr rfl) with h | ⟨h, _⟩
          · exact h.le
          · exact h.le
        · simp only [List.mem_singleton] at h
          rw [← h]
      · rw [if_neg h2]
        push Not at h2
        obtain ⟨a, b, v, m1, m2, e1, e2, e3, e4, e5, e6, e7⟩ := searchTable_spec hf rest p hsort
          (fun q hq => ⟨hpos _ _ ((hmem q).mp hq).1 ((hmem q).mp hq).2, ((hmem q).mp hq).2⟩) h1 h2
        refine ⟨v, e5, .inr (.inr ⟨a.1, b.1, a.2, b.2, ((hmem a).mp m1).1, ((hmem b).mp m2).1, ((hmem a).mp m1).2, ((hmem b).mp m2).2,
          e1, e2, e3, ?_, e6, e7⟩)⟩
        intro g' v' hg hv
        exact e4 (g', v') ((hmem (g', v')).mpr ⟨hg, hv⟩)

/-- A table of three points, one of them without frequency. -/
example : tableOf [(some 1, 5), (none, 3), (some 10, 50)] ≠ [] := by
  simp [tableOf]

/-- **C167** (fails): a point at zero frequency, before another one, makes no number between both. -/
theorem zero_frequency_undefined : permittivityAt (.points [(some 0, 1), (some 2, 1)]) 1 = none := by
  have hb : before (0, 1) (2, 1) := by left; norm_num
  have hs : sortTable (tableOf [(some 0, 1), (some 2, 1)]) = [((0 : ℝ), (1 : ℝ)), (2, 1)] := by
    simp [tableOf, sortTable, List.insertionSort, List.orderedInsert, hb]
  unfold permittivityAt
  simp only [hs]
  norm_num [searchTable, between]

/-- **C167**: without any usable point, the value is that of the first point, and none at all without points. -/
theorem permittivity_fallback (l : List (Option ℝ × ℝ)) (h : tableOf l = []) (f : ℝ) :
    permittivityAt (.points l) f = some ((l.head?.map Prod.snd).getD 0) := by
  have hs : sortTable (tableOf l) = [] := by rw [h]; exact (sortTable_perm []).eq_nil
  unfold permittivityAt
  simp only [hs]
  cases l <;> rfl

/-! ## Attenuation -/

/-- **C167**: without data of permittivity, or without dimensions, the permeability is that of the material. -/
theorem attenuation_without_data (d : Option (Permittivity × Permittivity)) (f mu1 mu2 : ℝ) (dims : List ℝ)
    (h : d = none ∨ dims = []) : attenuation d f mu1 mu2 dims = some 1 := by
  unfold attenuation
  cases d with
  | none => rfl
  | some d =>
    rcases h with h | h
    · simp at h
    · simp [h]

theorem waveNumber_sq (f : ℝ) (mu eps : ℂ) : waveNumber f mu eps * waveNumber f mu eps =
    (((2 * Real.pi * f) ^ 2 * (vacuumPermeability * vacuumPermittivity) : ℝ) : ℂ) * (mu * eps) := by
  unfold waveNumber
  have h := Complex.cpow_nat_inv_pow ((vacuumPermeability : ℂ) * mu * (vacuumPermittivity : ℂ) * eps) (n := 2) (by norm_num)
  generalize ((vacuumPermeability : ℂ) * mu * (vacuumPermittivity : ℂ) * eps) ^ (((2 : ℕ) : ℂ)⁻¹) = r at *
  push_cast
  linear_combination (2 * (Real.pi : ℂ) * f) ^ 2 * h

/-- The sum of the inverse squares of odd numbers, up to any of them, is at most π²/8. -/
theorem odd_squares (n : ℕ) : ∑ i ∈ Finset.range n, 1 / (2 * (i : ℝ) + 1) ^ 2 ≤ Real.pi ^ 2 / 8 := by
  have hz := hasSum_zeta_two
  set g : ℕ → ℝ := fun n => (1 : ℝ) / (n : ℝ) ^ 2 with hg
  have hs : Summable g := hz.summable
  have he : Summable fun k : ℕ => g (2 * k) :=
    hs.comp_injective (i := fun k : ℕ => 2 * k) (mul_right_injective₀ (by norm_num))
  have ho : Summable fun k : ℕ => g (2 * k + 1) :=
    hs.comp_injective (i := fun k : ℕ => 2 * k + 1) ((add_left_injective 1).comp (mul_right_injective₀ (by norm_num)))
  have hsum := tsum_even_add_odd he ho
  rw [hz.tsum_eq] at hsum
  have hquarter : ∑' k : ℕ, g (2 * k) = 1 / 4 * (Real.pi ^ 2 / 6) := by
    rw [← hz.tsum_eq, ← tsum_mul_left]
    congr 1
    funext k
    simp only [hg]
    push_cast
    rw [mul_pow, one_div_mul_one_div]
    norm_num
  have hle : ∑ i ∈ Finset.range n, g (2 * i + 1) ≤ ∑' k : ℕ, g (2 * k + 1) :=
    ho.sum_le_tsum (Finset.range n) (fun i _ => by simp only [hg]; positivity)
  have heq : ∑ i ∈ Finset.range n, 1 / (2 * (i : ℝ) + 1) ^ 2 = ∑ i ∈ Finset.range n, g (2 * i + 1) := by
    apply Finset.sum_congr rfl
    intro i _
    simp only [hg]
    push_cast
    rfl
  rw [heq]
  rw [hquarter] at hsum
  linarith

/-- The weight of a term of the series. -/
noncomputable def weight (i j : ℕ) : ℝ := 64 / (Real.pi ^ 4 * (2 * i + 1) ^ 2 * (2 * j + 1) ^ 2)

theorem weight_pos (i j : ℕ) : 0 < weight i j := by
  have := Real.pi_pos
  unfold weight; positivity

theorem weights_le : ∑ i ∈ Finset.range 41, ∑ j ∈ Finset.range 41, weight i j ≤ 1 := by
  have h : ∑ i ∈ Finset.range 41, ∑ j ∈ Finset.range 41, weight i j =
      64 / Real.pi ^ 4 * ((∑ i ∈ Finset.range 41, 1 / (2 * (i : ℝ) + 1) ^ 2) * ∑ j ∈ Finset.range 41, 1 / (2 * (j : ℝ) + 1) ^ 2) := by
    rw [Finset.sum_mul_sum, Finset.mul_sum]
    apply Finset.sum_congr rfl
    intro i _
    rw [Finset.mul_sum]
    apply Finset.sum_congr rfl
    intro j _
    have := Real.pi_pos
    unfold weight
    field_simp
  rw [h]
  have h1 := odd_squares 41
  have h0 : 0 ≤ ∑ i ∈ Finset.range 41, 1 / (2 * (i : ℝ) + 1) ^ 2 := Finset.sum_nonneg fun i _ => by positivity
  have hp := Real.pi_pos
  calc 64 / Real.pi ^ 4 * ((∑ i ∈ Finset.range 41, 1 / (2 * (i : ℝ) + 1) ^ 2) * ∑ j ∈ Finset.range 41, 1 / (2 * (j : ℝ) + 1) ^ 2)
      ≤ 64 / Real.pi ^ 4 * (Real.pi ^ 2 / 8 * (Real.pi ^ 2 / 8)) := by gcongr
    _ = 1 := by field_simp; norm_num

theorem seriesTerm_eq (a b : ℝ) (k2 : ℂ) (i j : ℕ) (h : (modeSquared a b i j : ℂ) ≠ k2) :
    seriesTerm a b k2 i j = weight i j * (modeSquared a b i j / (modeSquared a b i j - k2)) - weight i j := by
  have h1 : (modeSquared a b i j : ℂ) - k2 ≠ 0 := sub_ne_zero.mpr h
  have hp : (Real.pi : ℂ) ≠ 0 := by exact_mod_cast Real.pi_ne_zero
  have hi : (2 * (i : ℂ) + 1) ≠ 0 := by exact_mod_cast (by omega : 2 * i + 1 ≠ 0)
  have hj : (2 * (j : ℂ) + 1) ≠ 0 := by exact_mod_cast (by omega : 2 * j + 1 ≠ 0)
  unfold seriesTerm weight
  push_cast
  field_simp
  ring

/-- Losses of one term. -/
theorem term_passive {mu eps : ℂ} {β k : ℝ} (hβ : 0 ≤ β) (hk : 0 ≤ k) (hmu : mu.im ≤ 0) (he : eps.im ≤ 0) :
    (mu * (k / (k - β * (mu * eps)))).im ≤ 0 := by
  rw [← mul_div_assoc, div_eq_mul_inv, Complex.inv_def, ← mul_assoc, im_mul_ofReal]
  apply mul_nonpos_of_nonpos_of_nonneg _ (inv_nonneg.mpr (normSq_nonneg _))
  have : (mu * k * (starRingEnd ℂ) (k - β * (mu * eps))).im = k * (k * mu.im + β * normSq mu * eps.im) := by
    rw [normSq_apply]
    simp
    ring
  rw [this]
  apply mul_nonpos_of_nonneg_of_nonpos hk
  have h1 := mul_nonpos_of_nonneg_of_nonpos hk hmu
  have h2 := mul_nonpos_of_nonneg_of_nonpos (mul_nonneg hβ (normSq_nonneg mu)) he
  linarith

/-- The rectangle keeps losses. -/
theorem rectangle_passive {a b β : ℝ} {mu eps x : ℂ} (hβ : 0 ≤ β) (hmu : mu.im ≤ 0) (he : eps.im ≤ 0)
    (h : rectangleFactor a b (β * (mu * eps)) = some x) : (mu * x).im ≤ 0 := by
  unfold rectangleFactor at h
  split_ifs at h with hr
  push Not at hr
  simp only [Option.some.injEq] at h
  have hsum : ∑ i ∈ Finset.range 41, ∑ j ∈ Finset.range 41, seriesTerm a b (β * (mu * eps)) i j =
      (∑ i ∈ Finset.range 41, ∑ j ∈ Finset.range 41, (weight i j : ℂ) * (modeSquared a b i j / (modeSquared a b i j - β * (mu * eps)))) -
        ((∑ i ∈ Finset.range 41, ∑ j ∈ Finset.range 41, weight i j : ℝ) : ℂ) := by
    push_cast
    rw [← Finset.sum_sub_distrib]
    apply Finset.sum_congr rfl
    intro i hi
    rw [← Finset.sum_sub_distrib]
    apply Finset.sum_congr rfl
    intro j hj
    exact seriesTerm_eq a b _ i j (hr i (Finset.mem_range.mp hi) j (Finset.mem_range.mp hj))
  rw [← h, hsum]
  set S := ∑ i ∈ Finset.range 41, ∑ j ∈ Finset.range 41, weight i j with hS
  have hsplit : mu * (1 + ((∑ i ∈ Finset.range 41, ∑ j ∈ Finset.range 41,
      (weight i j : ℂ) * (modeSquared a b i j / (modeSquared a b i j - β * (mu * eps)))) - (S : ℂ))) =
      ((1 - S : ℝ) : ℂ) * mu + ∑ i ∈ Finset.range 41, ∑ j ∈ Finset.range 41,
        (weight i j : ℂ) * (mu * (modeSquared a b i j / (modeSquared a b i j - β * (mu * eps)))) := by
    have : ∑ i ∈ Finset.range 41, ∑ j ∈ Finset.range 41,
        (weight i j : ℂ) * (mu * (modeSquared a b i j / (modeSquared a b i j - β * (mu * eps)))) =
        mu * ∑ i ∈ Finset.range 41, ∑ j ∈ Finset.range 41,
          (weight i j : ℂ) * (modeSquared a b i j / (modeSquared a b i j - β * (mu * eps))) := by
      rw [Finset.mul_sum]
      apply Finset.sum_congr rfl
      intro i _
      rw [Finset.mul_sum]
      apply Finset.sum_congr rfl
      intro j _
      ring
    rw [this]
    push_cast
    ring
  rw [hsplit, add_im, im_ofReal_mul, im_sum]
  apply add_nonpos
  · exact mul_nonpos_of_nonneg_of_nonpos (by have := weights_le; rw [← hS] at this; linarith) hmu
  · apply Finset.sum_nonpos
    intro i _
    rw [im_sum]
    apply Finset.sum_nonpos
    intro j _
    rw [im_ofReal_mul]
    apply mul_nonpos_of_nonneg_of_nonpos (weight_pos i j).le
    exact term_passive hβ (by unfold modeSquared; positivity) hmu he

/-- A positive `a` with `y a = sinh y` and a `b` with `y b = sin y`, that one at least this one. -/
theorem sinh_over (y : ℝ) : ∃ a : ℝ, y * a = Real.sinh y ∧ 1 ≤ a := by
  rcases lt_trichotomy y 0 with h | rfl | h
  · refine ⟨Real.sinh y / y, mul_div_cancel₀ _ h.ne, ?_⟩
    rw [le_div_iff_of_neg h, one_mul]
    exact Real.sinh_le_self_iff.mpr h.le
  · exact ⟨1, by simp, le_rfl⟩
  · refine ⟨Real.sinh y / y, mul_div_cancel₀ _ h.ne', ?_⟩
    rw [le_div_iff₀ h, one_mul]
    exact Real.self_le_sinh_iff.mpr h.le

theorem sin_over (y : ℝ) : ∃ b : ℝ, y * b = Real.sin y ∧ |b| ≤ 1 := by
  by_cases h : y = 0
  · exact ⟨1, by simp [h], by simp⟩
  · refine ⟨Real.sin y / y, by field_simp, ?_⟩
    rw [abs_div, div_le_one (abs_pos.mpr h)]
    exact Real.abs_sin_le_abs

/-- The slab keeps losses. -/
theorem slab_passive {β : ℝ} {mu eps x y : ℂ} (hβ : 0 ≤ β) (hmu : mu.im ≤ 0) (he : eps.im ≤ 0) (hx : x * x = β * (mu * eps))
    (h : slabFactor x = some y) : (mu * y).im ≤ 0 := by
  unfold slabFactor at h
  split_ifs at h with h1 h2
  · simp only [Option.some.injEq] at h
    rw [← h, mul_one]; exact hmu
  simp only [Option.some.injEq] at h
  have hx0 : x ≠ 0 := by
    intro h3
    apply h1
    rw [h3]; simp
  have hβ' : β ≠ 0 := by
    rintro rfl
    simp [hx0] at hx
  have hmu0 : mu ≠ 0 := by
    rintro rfl
    simp [hx0] at hx
  have he0 : eps ≠ 0 := by
    rintro rfl
    simp [hx0] at hx
  obtain ⟨A, hA, hA1⟩ := sinh_over (2 * x.im)
  obtain ⟨B, hB, hB1⟩ := sin_over (2 * x.re)
  have hAB : 0 ≤ A + B ∧ 0 ≤ A - B := by
    have := abs_le.mp hB1
    constructor <;> linarith
  set N := normSq (Complex.cos x) with hN
  have hNpos : 0 < N := normSq_pos.mpr h2
  -- the tangent, from the double of both parts
  have htan : Complex.tan x * N = ((2 * x.re * B : ℝ) + I * (2 * x.im * A : ℝ)) / 2 := by
    rw [hA, hB, Complex.tan_eq_sin_div_cos, hN, normSq_eq_conj_mul_self]
    rw [show Complex.sin x / Complex.cos x * ((starRingEnd ℂ) (Complex.cos x) * Complex.cos x) =
      Complex.sin x * (starRingEnd ℂ) (Complex.cos x) by field_simp]
    rw [← Complex.cos_conj]
    have hsc : Complex.sin x * Complex.cos ((starRingEnd ℂ) x) = (Complex.sin (x + (starRingEnd ℂ) x) + Complex.sin (x - (starRingEnd ℂ) x)) / 2 := by
      rw [Complex.sin_add, Complex.sin_sub]; ring
    rw [hsc, add_conj, sub_conj]
    have e2 : Complex.sin (((2 * x.im : ℝ) : ℂ) * I) = ((Real.sinh (2 * x.im) : ℝ) : ℂ) * I := by
      rw [Complex.sin_mul_I]; push_cast; ring
    rw [e2]
    push_cast
    ring
  have hz : x * x - (normSq x : ℂ) = 2 * x.im * I * x := by
    rw [normSq_eq_conj_mul_self]
    have : x - (starRingEnd ℂ) x = 2 * x.im * I := by rw [sub_conj]; push_cast; ring
    linear_combination x * this
  have hz' : x * x + (normSq x : ℂ) = 2 * x.re * x := by
    rw [normSq_eq_conj_mul_self]
    have : x + (starRingEnd ℂ) x = 2 * x.re := by rw [add_conj]; push_cast; ring
    linear_combination x * this
  -- the balance of energies
  have hbal : 2 * (x * x) * (Complex.tan x / x) * N = x * x * ((A + B : ℝ) : ℂ) - (normSq x : ℂ) * ((A - B : ℝ) : ℂ) := by
    have e1 : 2 * (x * x) * (Complex.tan x / x) * N = 2 * x * (Complex.tan x * N) := by field_simp
    rw [e1, htan]
    push_cast
    linear_combination -(A : ℂ) * hz - (B : ℂ) * hz'
  rw [hx] at hbal
  have hfin : mu * y * ((2 * N * β * normSq eps : ℝ) : ℂ) =
      ((β * normSq eps * (A + B) : ℝ) : ℂ) * mu - ((normSq x * (A - B) : ℝ) : ℂ) * (starRingEnd ℂ) eps := by
    rw [← h]
    have hee : (normSq eps : ℂ) = (starRingEnd ℂ) eps * eps := normSq_eq_conj_mul_self
    push_cast at hbal ⊢
    rw [hee]
    linear_combination ((starRingEnd ℂ) eps) * hbal
  have hpos : 0 < 2 * N * β * normSq eps := by
    have := normSq_pos.mpr he0
    have := lt_of_le_of_ne hβ (Ne.symm hβ')
    positivity
  have him := congrArg Complex.im hfin
  rw [im_mul_ofReal, sub_im, im_ofReal_mul, im_ofReal_mul, conj_im] at him
  have h3 : β * normSq eps * (A + B) * mu.im ≤ 0 :=
    mul_nonpos_of_nonneg_of_nonpos (mul_nonneg (mul_nonneg hβ (normSq_nonneg _)) hAB.1) hmu
  have h4 : 0 ≤ normSq x * (A - B) * -eps.im := mul_nonneg (mul_nonneg (normSq_nonneg _) hAB.2) (by linarith)
  by_contra hcon
  push Not at hcon
  have := mul_pos hcon hpos
  linarith

/-- **C167**: the attenuation by the dimensions of a core never turns losses into gain: of a material with losses in permeability and
permittivity, the effective permeability has losses too, at any frequency and for any section. -/
theorem attenuation_passive {d : Permittivity × Permittivity} {f mu1 mu2 e2 : ℝ} {dims : List ℝ} {x : ℂ} (hmu : 0 ≤ mu2)
    (he : permittivityAt d.2 f = some e2) (he2 : 0 ≤ e2) (h : attenuation (some d) f mu1 mu2 dims = some x) :
    ((⟨mu1, -mu2⟩ : ℂ) * x).im ≤ 0 := by
  have hone : ((⟨mu1, -mu2⟩ : ℂ) * 1).im ≤ 0 := by simpa using hmu
  unfold attenuation at h
  simp only at h
  by_cases hd : dims = []
  · rw [if_pos hd] at h; simp only [Option.some.injEq] at h; rw [← h]; exact hone
  rw [if_neg hd, he] at h
  cases h1 : permittivityAt d.1 f with
  | none => rw [h1] at h; simp at h
  | some e1 =>
    rw [h1] at h
    simp only at h
    by_cases hp : e1 ≤ 0
    · rw [if_pos hp] at h; simp only [Option.some.injEq] at h; rw [← h]; exact hone
    rw [if_neg hp] at h
    have hβ : 0 ≤ (2 * Real.pi * f) ^ 2 * (vacuumPermeability * vacuumPermittivity) := by
      have := Real.pi_pos
      unfold vacuumPermeability vacuumPermittivity
      positivity
    have hmi : ((⟨mu1, -mu2⟩ : ℂ)).im ≤ 0 := by simpa using hmu
    have hei : ((⟨e1, -e2⟩ : ℂ)).im ≤ 0 := by simpa using he2
    split at h
    · simp only [Option.some.injEq] at h; rw [← h]; exact hone
    · next a _ =>
      refine slab_passive (β := (2 * Real.pi * f) ^ 2 * (vacuumPermeability * vacuumPermittivity) * (a / 2) ^ 2) (by positivity) hmi hei ?_ h
      have hw := waveNumber_sq f ⟨mu1, -mu2⟩ ⟨e1, -e2⟩
      push_cast at hw ⊢
      linear_combination (a / 2 : ℂ) ^ 2 * hw
    · rw [waveNumber_sq] at h
      exact rectangle_passive hβ hmi hei h

/-- **C167**: with losses in permeability or permittivity there is no exact resonance of the section, and the attenuation is defined. -/
theorem attenuation_defined {d : Permittivity × Permittivity} {f mu1 mu2 e1 e2 a b : ℝ} (hf : f ≠ 0) (hm1 : 0 < mu1) (hm2 : 0 ≤ mu2)
    (h1 : permittivityAt d.1 f = some e1) (h2 : permittivityAt d.2 f = some e2) (he1 : 0 < e1) (he2 : 0 ≤ e2) (hl : 0 < mu2 ∨ 0 < e2)
    (ha : 0 < a) (hb : 0 < b) : ∃ x, attenuation (some d) f mu1 mu2 [a, b] = some x := by
  unfold attenuation
  simp only [List.cons_ne_nil, if_false, reduceCtorEq, h1, h2, List.filter_cons, ha, hb, decide_true, if_true, List.filter_nil]
  rw [if_neg (not_le.mpr he1), waveNumber_sq]
  unfold rectangleFactor
  have hne : ¬ ∃ i < 41, ∃ j < 41, (modeSquared a b i j : ℂ) =
      (((2 * Real.pi * f) ^ 2 * (vacuumPermeability * vacuumPermittivity) : ℝ) : ℂ) * ((⟨mu1, -mu2⟩ : ℂ) * ⟨e1, -e2⟩) := by
    rintro ⟨i, _, j, _, h⟩
    have him := congrArg Complex.im h
    rw [ofReal_im, im_ofReal_mul] at him
    have hp := Real.pi_pos
    have hc : 0 < (2 * Real.pi * f) ^ 2 * (vacuumPermeability * vacuumPermittivity) := by
      unfold vacuumPermeability vacuumPermittivity; positivity
    rw [mul_im] at him
    simp only at him
    have : 0 < mu1 * e2 + mu2 * e1 := by
      rcases hl with hl | hl
      · have := mul_pos hl he1; have := mul_nonneg hm1.le he2; linarith
      · have := mul_pos hm1 hl; have := mul_nonneg hm2 he1.le; linarith
    rcases mul_eq_zero.mp him.symm with h3 | h3
    · exact hc.ne' h3
    · linarith
  rw [if_neg hne]
  exact ⟨_, rfl⟩

/-- A material with losses in both meets the hypotheses. -/
example : ∃ x, attenuation (some (.point 1, .point 1)) 1 1 1 [1, 1] = some x :=
  attenuation_defined (by norm_num) (by norm_num) (by norm_num) rfl rfl (by norm_num) (by norm_num) (by norm_num) (by norm_num) (by norm_num)

/-- **C167**: at zero frequency, there is no attenuation. -/
theorem attenuation_dc {d : Permittivity × Permittivity} {mu1 mu2 : ℝ} {dims : List ℝ} {x : ℂ}
    (h : attenuation (some d) 0 mu1 mu2 dims = some x) : x = 1 := by
  have hw : ∀ mu eps, waveNumber 0 mu eps = 0 := fun mu eps => by simp [waveNumber]
  unfold attenuation at h
  simp only [hw] at h
  by_cases hd : dims = []
  · rw [if_pos hd] at h; simp only [Option.some.injEq] at h; exact h.symm
  rw [if_neg hd] at h
  split at h
  · split_ifs at h with hp
    · simp only [Option.some.injEq] at h; exact h.symm
    · split at h
      · simp only [Option.some.injEq] at h; exact h.symm
      · unfold slabFactor at h
        rw [if_pos (by norm_num)] at h
        simp only [Option.some.injEq] at h; exact h.symm
      · unfold rectangleFactor at h
        split_ifs at h
        simp only [Option.some.injEq, mul_zero] at h
        rw [← h]
        simp [seriesTerm]
  · simp at h

/-- **C167**: width and depth are interchangeable. -/
theorem attenuation_symmetric (d : Option (Permittivity × Permittivity)) (f mu1 mu2 a b : ℝ) :
    attenuation d f mu1 mu2 [a, b] = attenuation d f mu1 mu2 [b, a] := by
  unfold attenuation
  cases d with
  | none => rfl
  | some d =>
    simp only [List.cons_ne_nil, if_false, reduceCtorEq]
    cases permittivityAt d.1 f with
    | none => rfl
    | some e1 =>
      cases permittivityAt d.2 f with
      | none => rfl
      | some e2 =>
        simp only
        by_cases hp : e1 ≤ 0
        · rw [if_pos hp, if_pos hp]
        rw [if_neg hp, if_neg hp]
        have hm : ∀ i j, modeSquared a b i j = modeSquared b a j i := fun i j => by unfold modeSquared; ring
        by_cases ha : 0 < a <;> by_cases hb : 0 < b <;> simp only [List.filter_cons, ha, hb, decide_true, decide_false, if_true, if_false,
          List.filter_nil, Bool.false_eq_true]
        unfold rectangleFactor
        have hiff : (∃ i < 41, ∃ j < 41, (modeSquared a b i j : ℂ) = waveNumber f ⟨mu1, -mu2⟩ ⟨e1, -e2⟩ * waveNumber f ⟨mu1, -mu2⟩ ⟨e1, -e2⟩) ↔
            ∃ i < 41, ∃ j < 41, (modeSquared b a i j : ℂ) = waveNumber f ⟨mu1, -mu2⟩ ⟨e1, -e2⟩ * waveNumber f ⟨mu1, -mu2⟩ ⟨e1, -e2⟩ := by
          constructor
          · rintro ⟨i, hi, j, hj, h⟩; exact ⟨j, hj, i, hi, by rw [← hm]; exact h⟩
          · rintro ⟨i, hi, j, hj, h⟩; exact ⟨j, hj, i, hi, by rw [hm]; exact h⟩
        have hsum : ∀ k2 : ℂ, ∑ i ∈ Finset.range 41, ∑ j ∈ Finset.range 41, seriesTerm a b k2 i j =
            ∑ i ∈ Finset.range 41, ∑ j ∈ Finset.range 41, seriesTerm b a k2 i j := fun k2 => by
          rw [Finset.sum_comm]
          apply Finset.sum_congr rfl
          intro i _
          apply Finset.sum_congr rfl
          intro j _
          unfold seriesTerm
          rw [hm]
          congr 1
          ring
        by_cases hx : ∃ i < 41, ∃ j < 41, (modeSquared a b i j : ℂ) = waveNumber f ⟨mu1, -mu2⟩ ⟨e1, -e2⟩ * waveNumber f ⟨mu1, -mu2⟩ ⟨e1, -e2⟩
        · rw [if_pos hx, if_pos (hiff.mp hx)]
        · rw [if_neg hx, if_neg (fun h => hx (hiff.mpr h)), hsum]

end Verif.Impedance
