import Mathlib.Tactic.Linarith
import Mathlib.Tactic.NormNum
import Mathlib.Algebra.Order.Field.Rat
import Mathlib.Data.List.Sort
import Mathlib.Data.List.Nodup
import Verif.Bobbin.Model

/-!
# The splines fitted to the catalogue of bobbins (C180)
-/

namespace Verif.Bobbin

set_option linter.unusedSectionVars false
set_option linter.unusedSimpArgs false

variable {K : Type} [Field K] [LinearOrder K] [IsStrictOrderedRing K]

/-! ## The specification -/

/-- A nanometre. -/
def Spec.nano : K := 1 / 1000000000

/-- Points a spline can be fitted to: each abscissa is more than a nanometre after the one before. -/
def Spec.Spread (points : List (K × K)) : Prop := points.Pairwise fun a b => a.1 + Spec.nano < b.1

/-- A row with all that is needed: a functional description, a known shape with a window, and a window of its own. -/
def Spec.Complete (r : CatalogueRow K) : Prop :=
  r.functional = true ∧ (∃ c, r.coreWindow = some (some c)) ∧ ∃ b, r.bobbinWindow = some b

/-! ## Lemmas -/

theorem thinned_some (l : List (K × K)) : ∀ x : K, (∀ p ∈ l, x ≤ p.1) → (l.Pairwise fun a b => a.1 ≤ b.1) →
    Spec.Spread (thinned (some x) l) ∧ (∀ q ∈ thinned (some x) l, q ∈ l ∧ x + Spec.nano < q.1) ∧
      (∀ p ∈ l, p.1 ≤ x + Spec.nano ∨ ∃ q ∈ thinned (some x) l, q.1 ≤ p.1 ∧ p.1 ≤ q.1 + Spec.nano) := by
  induction l with
  | nil => intro x _ _; exact ⟨List.Pairwise.nil, by simp [thinned], by simp⟩
  | cons p ps ih =>
    intro x hx hs
    have hp : x ≤ p.1 := hx p List.mem_cons_self
    have habs : |p.1 - x| = p.1 - x := abs_of_nonneg (by linarith)
    obtain ⟨hps, hs'⟩ := List.pairwise_cons.mp hs
    by_cases hcase : 1 / 1000000000 < |p.1 - x|
    · obtain ⟨h1, h2, h3⟩ := ih p.1 hps hs'
      have e : thinned (some x) (p :: ps) = p :: thinned (some p.1) ps := by simp only [thinned]; rw [if_pos hcase]
      have hgt : x + Spec.nano < p.1 := by unfold Spec.nano; rw [habs] at hcase; linarith
      rw [e]
      refine ⟨List.pairwise_cons.mpr ⟨fun q hq => (h2 q hq).2, h1⟩, ?_, ?_⟩
      · intro q hq
        rcases List.mem_cons.mp hq with rfl | hq
        · exact ⟨List.mem_cons_self, hgt⟩
        · refine ⟨List.mem_cons_of_mem _ (h2 q hq).1, ?_⟩
          have := (h2 q hq).2
          have hn : (0 : K) ≤ Spec.nano := by unfold Spec.nano; norm_num
          linarith
      · intro r hr
        rcases List.mem_cons.mp hr with rfl | hr
        · right
          exact ⟨r, List.mem_cons_self, le_rfl, by have hn : (0 : K) ≤ Spec.nano := by { unfold Spec.nano; norm_num }
                                                   linarith⟩
        · rcases h3 r hr with h | ⟨q, hq, hq'⟩
          · exact Or.inr ⟨p, List.mem_cons_self, hps r hr, h⟩
          · exact Or.inr ⟨q, List.mem_cons_of_mem _ hq, hq'⟩
    · obtain ⟨h1, h2, h3⟩ := ih x (fun q hq => hx q (List.mem_cons_of_mem _ hq)) hs'
      have e : thinned (some x) (p :: ps) = thinned (some x) ps := by simp only [thinned]; rw [if_neg hcase]
      rw [e]
      refine ⟨h1, fun q hq => ⟨List.mem_cons_of_mem _ (h2 q hq).1, (h2 q hq).2⟩, ?_⟩
      intro r hr
      rcases List.mem_cons.mp hr with rfl | hr
      · left
        rw [habs] at hcase
        unfold Spec.nano
        linarith [not_lt.mp hcase]
      · exact h3 r hr

/-! ## The properties -/

/-- C180. Whatever order `std::sort` leaves equal samples in, the points of a spline are more than a nanometre apart, each of them is a
sample, every sample has a point at most a nanometre before it, and the limits are the least and the largest abscissa of the samples. -/
theorem spline_points (samples sorted : List (K × K)) (hs : SortedFrom samples sorted) (hn : samples ≠ []) :
    ∃ (points : List (K × K)) (lo hi : K), splineOf sorted = .value (points, (lo, hi)) ∧ Spec.Spread points ∧
      (∀ q ∈ points, q ∈ samples) ∧ (∀ p ∈ samples, ∃ q ∈ points, q.1 ≤ p.1 ∧ p.1 ≤ q.1 + Spec.nano) ∧
      (∃ p ∈ samples, p.1 = lo) ∧ (∃ p ∈ samples, p.1 = hi) ∧ (∀ p ∈ samples, lo ≤ p.1 ∧ p.1 ≤ hi) ∧
      (∃ q : K × K, points.head? = some q ∧ q.1 = lo) := by
  obtain ⟨hperm, hsort⟩ := hs
  have hn' : sorted ≠ [] := fun h => hn (by rw [h] at hperm; exact hperm.eq_nil)
  obtain ⟨p, ps, rfl⟩ := List.exists_cons_of_ne_nil hn'
  obtain ⟨hp, hps⟩ := List.pairwise_cons.mp hsort
  obtain ⟨h1, h2, h3⟩ := thinned_some ps p.1 hp hps
  have hnano : (0 : K) ≤ Spec.nano := by unfold Spec.nano; norm_num
  have hlast : (p :: ps).getLast? = some ((p :: ps).getLast (by simp)) := List.getLast?_eq_some_getLast (by simp)
  refine ⟨p :: thinned (some p.1) ps, p.1, ((p :: ps).getLast (by simp)).1, ?_, List.pairwise_cons.mpr ⟨fun q hq => (h2 q hq).2, h1⟩,
    ?_, ?_, ⟨p, hperm.mem_iff.mpr List.mem_cons_self, rfl⟩, ⟨_, hperm.mem_iff.mpr (List.getLast_mem _), rfl⟩, ?_, ⟨p, rfl, rfl⟩⟩
  · unfold splineOf
    rw [hlast]
    simp [thinned]
  · intro q hq
    rw [hperm.mem_iff]
    rcases List.mem_cons.mp hq with rfl | hq
    · exact List.mem_cons_self
    · exact List.mem_cons_of_mem _ (h2 q hq).1
  · intro r hr
    rcases List.mem_cons.mp (hperm.mem_iff.mp hr) with rfl | hr
    · exact ⟨r, List.mem_cons_self, le_rfl, by linarith⟩
    · rcases h3 r hr with h | ⟨q, hq, hq'⟩
      · exact ⟨p, List.mem_cons_self, hp r hr, h⟩
      · exact ⟨q, List.mem_cons_of_mem _ hq, hq'⟩
  · intro r hr
    have hr := hperm.mem_iff.mp hr
    refine ⟨?_, ?_⟩
    · rcases List.mem_cons.mp hr with rfl | hr
      · exact le_rfl
      · exact hp r hr
    · rw [← List.dropLast_append_getLast (l := p :: ps) (by simp)] at hr hsort
      rcases List.mem_append.mp hr with h | h
      · exact (List.pairwise_append.mp hsort).2.2 r h _ (by simp)
      · rw [List.mem_singleton.mp h]

/-- C180, in part. When no two samples have the same abscissa, the points do not depend on how `std::sort` works. What is missing: with
equal ones they do, see `equal_widths_unspecified`. -/
theorem spline_determined_partial (samples a b : List (K × K)) (ha : SortedFrom samples a) (hb : SortedFrom samples b)
    (hd : (samples.map Prod.fst).Nodup) : splineOf a = splineOf b := by
  have strict : ∀ l : List (K × K), SortedFrom samples l → l.Pairwise fun x y => x.1 < y.1 := by
    intro l hl
    have hnd : (l.map Prod.fst).Nodup := (hl.1.map Prod.fst).nodup_iff.mp hd
    have hne : l.Pairwise fun x y => x.1 ≠ y.1 := by
      have := hnd
      unfold List.Nodup at this
      rwa [List.pairwise_map] at this
    exact (hl.2.and hne).imp fun h => lt_of_le_of_ne h.1 h.2
  have hab : a.Perm b := ha.1.symm.trans hb.1
  have : a = b := hab.eq_of_pairwise (fun x y _ _ h1 h2 => absurd (h1.trans h2) (lt_irrefl _)) (strict a ha) (strict b hb)
  rw [this]

/-- C180, against the code. Two bobbins with windows of the same width and different filling factors: the spline goes through one or the
other, whichever `std::sort` leaves first. -/
theorem equal_widths_unspecified : ∃ (samples a b : List (ℚ × ℚ)), SortedFrom samples a ∧ SortedFrom samples b ∧ splineOf a ≠ splineOf b := by
  refine ⟨[(1, 1 / 2), (1, 1 / 3), (2, 1 / 2)], [(1, 1 / 2), (1, 1 / 3), (2, 1 / 2)], [(1, 1 / 3), (1, 1 / 2), (2, 1 / 2)],
    ⟨List.Perm.refl _, by decide +kernel⟩, ⟨List.Perm.swap _ _ _, by decide +kernel⟩, by decide +kernel⟩

/-- C180, against the code. With no usable bobbin in the catalogue the first of an empty vector is read. -/
theorem no_samples_undefined : splineOf ([] : List (K × K)) = .undefined := rfl

/-- C180. Every bobbin of the catalogue is either used or counted among those that could not be, and the ones used are those that have all
that is needed, in their order. -/
theorem scan_accounts (rows : List (CatalogueRow K)) :
    (scan rows).1.length + (scan rows).2 = rows.length ∧
      ∃ used : List (CatalogueRow K), used.Sublist rows ∧ (∀ r ∈ rows, r ∈ used ↔ Spec.Complete r) ∧
        List.Forall₂ (fun (r : CatalogueRow K) (s : Sample K) => ∃ c b : K × K × K, r.coreWindow = some (some c) ∧
          r.bobbinWindow = some b ∧ s = sampleOf r c b) used (scan rows).1 := by
  induction rows with
  | nil => exact ⟨rfl, [], List.Sublist.refl _, by simp, List.Forall₂.nil⟩
  | cons r rs ih =>
    obtain ⟨hlen, used, hsub, hiff, hall⟩ := ih
    by_cases hc : Spec.Complete r
    · obtain ⟨hf, ⟨c, hcw⟩, ⟨b, hbw⟩⟩ := hc
      have hu : usable r = some (c, b) := by unfold usable; rw [if_pos hf, hcw, hbw]
      have e1 : (scan (r :: rs)).1 = sampleOf r c b :: (scan rs).1 := by simp only [scan]; rw [hu]
      have e2 : (scan (r :: rs)).2 = (scan rs).2 := by simp only [scan]; rw [hu]
      refine ⟨by rw [e1, e2]; simp only [List.length_cons]; omega, r :: used, hsub.cons_cons r, ?_, ?_⟩
      · intro x hx
        constructor
        · intro hxu
          rcases List.mem_cons.mp hxu with rfl | h
          · exact ⟨hf, ⟨c, hcw⟩, ⟨b, hbw⟩⟩
          · exact (hiff x (hsub.subset h)).mp h
        · intro hxc
          rcases List.mem_cons.mp hx with rfl | h
          · exact List.mem_cons_self
          · exact List.mem_cons_of_mem _ ((hiff x h).mpr hxc)
      · rw [e1]
        exact List.Forall₂.cons ⟨c, b, hcw, hbw, rfl⟩ hall
    · have hu : usable r = none := by
        unfold usable
        by_cases hf : r.functional = true
        · rw [if_pos hf]
          rcases hcw : r.coreWindow with _ | (_ | c)
          · rfl
          · rfl
          · rcases hbw : r.bobbinWindow with _ | b
            · rfl
            · exact absurd ⟨hf, ⟨c, hcw⟩, ⟨b, hbw⟩⟩ hc
        · rw [if_neg hf]
      have e1 : (scan (r :: rs)).1 = (scan rs).1 := by simp only [scan]; rw [hu]
      have e2 : (scan (r :: rs)).2 = (scan rs).2 + 1 := by simp only [scan]; rw [hu]
      refine ⟨by rw [e1, e2]; simp only [List.length_cons]; omega, used, hsub.cons r, ?_, by rw [e1]; exact hall⟩
      intro x hx
      rcases List.mem_cons.mp hx with rfl | h
      · constructor
        · intro hxu
          exact (hiff x (hsub.subset hxu)).mp hxu
        · intro h; exact absurd h hc
      · exact hiff x h

/-- C180. The proportions of a row whose bobbin goes inside its core, and its filling factor, are between none and all; its thicknesses are
those it declares, or what is left of the core when it declares none. -/
theorem sample_of_row (r : CatalogueRow K) (ca cw ch ba bw bh : K) (ha : 0 ≤ ba) (ha' : ba ≤ 2 * ca) (hca : 0 < ca) (hw : 0 ≤ bw) (hw' : bw ≤ cw)
    (hcw : 0 < cw) (hh : 0 ≤ bh) (hh' : bh ≤ 2 * ch) (hch : 0 < ch) :
    0 ≤ (sampleOf r (ca, cw, ch) (ba, bw, bh)).filling ∧ (sampleOf r (ca, cw, ch) (ba, bw, bh)).filling ≤ 1 ∧
      0 ≤ (sampleOf r (ca, cw, ch) (ba, bw, bh)).proportionWidth ∧ (sampleOf r (ca, cw, ch) (ba, bw, bh)).proportionWidth ≤ 1 ∧
      0 ≤ (sampleOf r (ca, cw, ch) (ba, bw, bh)).proportionHeight ∧ (sampleOf r (ca, cw, ch) (ba, bw, bh)).proportionHeight ≤ 1 ∧
      (sampleOf r (ca, cw, ch) (ba, bw, bh)).coreHeight = 2 * ch ∧
      (0 < r.wall → (sampleOf r (ca, cw, ch) (ba, bw, bh)).wall = r.wall) ∧
      (r.wall ≤ 0 → 2 * (sampleOf r (ca, cw, ch) (ba, bw, bh)).wall + bh = 2 * ch) ∧
      (0 < r.column → (sampleOf r (ca, cw, ch) (ba, bw, bh)).column = r.column) ∧
      (r.column ≤ 0 → (sampleOf r (ca, cw, ch) (ba, bw, bh)).column + bw = cw) := by
  unfold sampleOf
  refine ⟨div_nonneg ha (by linarith), (div_le_one (by linarith)).mpr (by linarith), div_nonneg hw hcw.le, (div_le_one hcw).mpr hw',
    div_nonneg hh (by linarith), (div_le_one (by linarith)).mpr (by linarith), mul_comm _ _, fun h => if_pos h, fun h => ?_, fun h => if_pos h,
    fun h => ?_⟩
  · simp only
    rw [if_neg (not_lt.mpr h)]
    linarith
  · simp only
    rw [if_neg (not_lt.mpr h)]
    linarith

/-- C180. The least thickness is the least of the positive ones, if there is any. -/
theorem least_positive (l : List K) :
    (leastPositive l = none ↔ ∀ x ∈ l, x ≤ 0) ∧
      ∀ m : K, leastPositive l = some m → m ∈ l ∧ 0 < m ∧ ∀ x ∈ l, 0 < x → m ≤ x := by
  induction l with
  | nil => simp [leastPositive]
  | cons y ys ih =>
    obtain ⟨h1, h2⟩ := ih
    by_cases hy : 0 < y
    · simp only [leastPositive, if_pos hy]
      cases hl : leastPositive ys with
      | none =>
        refine ⟨⟨fun h => absurd h (by simp), fun h => absurd hy (not_lt.mpr (h y List.mem_cons_self))⟩, ?_⟩
        intro m hm
        obtain rfl := Option.some.inj hm
        refine ⟨List.mem_cons_self, hy, fun x hx hx0 => ?_⟩
        rcases List.mem_cons.mp hx with rfl | hx
        · exact le_rfl
        · exact absurd hx0 (not_lt.mpr (h1.mp hl x hx))
      | some n =>
        obtain ⟨hn, hn0, hn'⟩ := h2 n hl
        refine ⟨⟨fun h => absurd h (by simp), fun h => absurd hy (not_lt.mpr (h y List.mem_cons_self))⟩, ?_⟩
        intro m hm
        obtain rfl := Option.some.inj hm
        refine ⟨?_, lt_min hy hn0, fun x hx hx0 => ?_⟩
        · rcases min_choice y n with h | h
          · rw [h]; exact List.mem_cons_self
          · rw [h]; exact List.mem_cons_of_mem _ hn
        · rcases List.mem_cons.mp hx with rfl | hx
          · exact min_le_left _ _
          · exact (min_le_right _ _).trans (hn' x hx hx0)
    · simp only [leastPositive, if_neg hy]
      refine ⟨h1.trans ⟨fun h x hx => ?_, fun h x hx => h x (List.mem_cons_of_mem _ hx)⟩, fun m hm => ?_⟩
      · rcases List.mem_cons.mp hx with rfl | hx
        · exact not_lt.mp hy
        · exact h x hx
      · obtain ⟨a, b, c⟩ := h2 m hm
        refine ⟨List.mem_cons_of_mem _ a, b, fun x hx hx0 => ?_⟩
        rcases List.mem_cons.mp hx with rfl | hx
        · exact absurd hx0 hy
        · exact c x hx hx0

/-- C180, in part. The first time a thread asks, the splines are those of the catalogue it finds, or of the shipped one when there is none;
asking again changes nothing. What is missing: they do not follow a catalogue that is replaced, see `splines_not_rebuilt`. -/
theorem splines_first_partial {α : Type} (shipped catalogue : List α) :
    (catalogue ≠ [] → loadInterpolators shipped catalogue none = (catalogue, some catalogue)) ∧
      (∀ memo, loadInterpolators shipped [] memo = (shipped, some shipped)) ∧
      (∀ memo, shipped ≠ [] → loadInterpolators shipped (loadInterpolators shipped catalogue memo).1 (loadInterpolators shipped catalogue memo).2 =
        loadInterpolators shipped catalogue memo) := by
  refine ⟨fun h => ?_, fun memo => rfl, fun memo hs => ?_⟩
  · obtain ⟨c, cs, rfl⟩ := List.exists_cons_of_ne_nil h
    rfl
  · obtain ⟨s, ss, rfl⟩ := List.exists_cons_of_ne_nil hs
    cases catalogue with
    | nil => rfl
    | cons c cs => cases memo <;> rfl

/-- C180, against the code. Once a thread has its splines, a catalogue that is loaded in place of the one they were fitted to does not
change them. -/
theorem splines_not_rebuilt {α : Type} (shipped old new : List α) (ho : old ≠ []) (hn : new ≠ []) :
    (loadInterpolators shipped new (loadInterpolators shipped old none).2).2 = some old := by
  obtain ⟨o, os, rfl⟩ := List.exists_cons_of_ne_nil ho
  obtain ⟨n, ns, rfl⟩ := List.exists_cons_of_ne_nil hn
  rfl

example : SortedFrom [((2 : ℚ), (1 / 2 : ℚ)), (1, 1 / 3)] [(1, 1 / 3), (2, 1 / 2)] ∧ (([((2 : ℚ), (1 / 2 : ℚ)), (1, 1 / 3)]).map Prod.fst).Nodup :=
  ⟨⟨List.Perm.swap _ _ _, by decide +kernel⟩, by decide +kernel⟩

/-- Two rows, one without a functional description. -/
def rows : List (CatalogueRow ℚ) :=
  [{ functional := true, coreWindow := some (some (50, 10, 10)), bobbinWindow := some (60, 8, 16), wall := 1, column := 0 },
   { functional := false, coreWindow := none, bobbinWindow := none, wall := 1, column := 1 }]

example : ((scan rows).1.map fun s => (s.filling, s.column)) = [(3 / 5, 2)] ∧ (scan rows).2 = 1 := by decide +kernel

example : leastPositive [(3 : ℚ), 0, 2] = some 2 := by decide +kernel

end Verif.Bobbin
