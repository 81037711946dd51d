import Mathlib.Data.Rat.Floor
import Verif.Wire.Model
import Mathlib.Tactic.FieldSimp
import Mathlib.Tactic.Linarith
import Mathlib.Tactic.LinearCombination
import Mathlib.Tactic.Ring
import Mathlib.Tactic.Positivity

/-!
# C170: effective conducting area; C171: parallels needed
-/

set_option linter.unusedSimpArgs false
set_option linter.unusedSectionVars false

namespace Verif.Wire

open Verif.WireByDim (WireType)

variable {K : Type} [Field K] [LinearOrder K] [IsStrictOrderedRing K]

/-! ## Specification -/

/-- The part of one conductor that carries current: what is nearer to its surface than the depth of the skin. A disc of diameter `d`. -/
def disc (π d skin : K) : K := if skin < d / 2 then π * (d / 2) ^ 2 - π * (d / 2 - skin) ^ 2 else π * (d / 2) ^ 2

/-- A rectangle of `w` by `h`, of conducting area `area` (less than `w h` with rounded corners). -/
def slab (area w h skin : K) : K :=
  if skin < min w h / 2 then area * (1 - (w - 2 * skin) * (h - 2 * skin) / (w * h)) else area

/-- What the area must be: that of one conductor, times the number of conductors. -/
def IsEffective (π : K) (rect : K → K → K) (c : Conductor K) (skin : K) (e : K) : Prop :=
  match c.type with
  | .litz => ∃ d n, c.strand = some d ∧ conductorsOf c = some n ∧ e = n * disc π d skin
  | .round => ∃ d n, c.diameter = some d ∧ conductorsOf c = some n ∧ e = n * disc π d skin
  | .rectangular => ∃ w h n, c.width = some w ∧ c.height = some h ∧ conductorsOf c = some n ∧ e = n * slab (rect w h) w h skin
  | .foil => ∃ w h n, c.width = some w ∧ c.height = some h ∧ conductorsOf c = some n ∧ e = n * slab (w * h) w h skin
  | .planar => ∃ w h n, c.width = some w ∧ c.height = some h ∧ conductorsOf c = some n ∧ e = n * slab (w * h) w h skin

/-- Dimensions of a conductor are positive where it has them. -/
def Sized (rect : K → K → K) (c : Conductor K) : Prop :=
  (∀ d, c.strand = some d → 0 < d) ∧ (∀ d, c.diameter = some d → 0 < d) ∧ (∀ w, c.width = some w → 0 < w) ∧
    (∀ h, c.height = some h → 0 < h) ∧ ∀ w h, 0 < w → 0 < h → 0 < rect w h

/-- Wires of round conductors, or of one conductor. -/
def Simple (c : Conductor K) : Prop := c.type = .litz ∨ c.type = .round ∨ conductorsOf c = some 1

/-! ## C170 -/

theorem disc_nonneg {π d skin : K} (hπ : 0 < π) (hd : 0 < d) (hs : 0 ≤ skin) : 0 ≤ disc π d skin := by
  unfold disc
  split_ifs with h
  · have : (d / 2 - skin) ^ 2 ≤ (d / 2) ^ 2 := pow_le_pow_left₀ (by linarith) (by linarith) 2
    nlinarith
  · positivity

theorem slab_fraction {w h skin : K} (hw : 0 < w) (hh : 0 < h) (hs : 0 ≤ skin) (hlt : skin < min w h / 2) :
    0 < (w - 2 * skin) * (h - 2 * skin) / (w * h) ∧ (w - 2 * skin) * (h - 2 * skin) / (w * h) ≤ 1 := by
  have h1 : skin < w / 2 := hlt.trans_le (by linarith [min_le_left w h])
  have h2 : skin < h / 2 := hlt.trans_le (by linarith [min_le_right w h])
  constructor
  · exact div_pos (mul_pos (by linarith) (by linarith)) (mul_pos hw hh)
  · rw [div_le_one (mul_pos hw hh)]
    exact mul_le_mul (by linarith) (by linarith) (by linarith) hw.le

theorem flat_single (area w h skin : K) (hw : w ≠ 0) (hh : h ≠ 0) :
    area - (w - skin * 2) * (h - skin * 2) * 1 * (area / (w * h)) = area * (1 - (w - 2 * skin) * (h - 2 * skin) / (w * h)) := by
  field_simp

/-- C170 (partial: round conductors, or one flat conductor): the effective area of a wire of round conductors, or of one flat conductor, is the sum of what is within the skin of each. -/
theorem effective_is_partial {π : K} {rect : K → K → K} {c : Conductor K} {f skin e : K} (hπ : 0 < π) (hc : Sized rect c) (hsimple : Simple c)
    (hf : f ≠ 0) (hs : 0 ≤ skin) (h : effectiveArea π rect c f skin = some e) : IsEffective π rect c skin e := by
  obtain ⟨type, conductors, strand, diameter, width, height⟩ := c
  obtain ⟨h1, h2, h3, h4, h5⟩ := hc
  simp only at h1 h2 h3 h4
  cases hn : conductorsOf (⟨type, conductors, strand, diameter, width, height⟩ : Conductor K) with
  | none =>
    cases type <;> simp [effectiveArea, conductingArea, hn] at h
    all_goals (split at h <;> simp_all)
  | some n =>
    have hround : ∀ d : K, 0 < d → (if skin < d / 2 then
        (if π * (d / 2) ^ 2 * n - π * (d / 2 - skin) ^ 2 * n < 0 then none else some (π * (d / 2) ^ 2 * n - π * (d / 2 - skin) ^ 2 * n))
        else if π * (d / 2) ^ 2 * n < 0 then none else some (π * (d / 2) ^ 2 * n)) = some e → e = n * disc π d skin := by
      intro d hd hh
      unfold disc
      split_ifs at hh with a b b
      · simp only [Option.some.injEq] at hh
        rw [if_pos a, ← hh]; ring
      · simp only [Option.some.injEq] at hh
        rw [if_neg a, ← hh]; ring
    have hflat : ∀ (w h area one : K), 0 < w → 0 < h → n = 1 → area = one * n → (if skin < min w h / 2 then
        (if area - (w - skin * 2) * (h - skin * 2) * n * (area / (w * h)) < 0 then none
          else some (area - (w - skin * 2) * (h - skin * 2) * n * (area / (w * h))))
        else if area < 0 then none else some area) = some e → e = n * slab one w h skin := by
      intro w h area one hw hh hn1 ha he
      subst hn1
      simp only [Nat.cast_one, mul_one] at ha he ⊢
      subst ha
      have key := flat_single area w h skin hw.ne' hh.ne'
      rw [mul_one] at key
      unfold slab
      split_ifs at he with a b b
      · simp only [Option.some.injEq] at he
        rw [if_pos a, one_mul, ← he, key]
      · simp only [Option.some.injEq] at he
        rw [if_neg a, one_mul, ← he]
    cases type with
    | litz =>
      cases hd : strand with
      | none => simp [effectiveArea, smallest, hd] at h
      | some d =>
        subst hd
        refine ⟨d, n, rfl, hn, hround d (h1 d rfl) ?_⟩
        simpa [effectiveArea, smallest, conductingArea, hn, hollow, hf] using h
    | round =>
      cases hd : diameter with
      | none => simp [effectiveArea, smallest, hd] at h
      | some d =>
        subst hd
        refine ⟨d, n, rfl, hn, hround d (h2 d rfl) ?_⟩
        simpa [effectiveArea, smallest, conductingArea, hn, hollow, hf] using h
    | rectangular =>
      cases hw : width with
      | none => simp [effectiveArea, smallest, hw] at h
      | some w =>
        cases hh : height with
        | none => simp [effectiveArea, smallest, hw, hh] at h
        | some ht =>
          subst hw hh
          have hn1 : n = 1 := by
            rcases hsimple with a | a | a
            · simp at a
            · simp at a
            · rw [hn] at a; simpa using a
          refine ⟨w, ht, n, rfl, rfl, hn, hflat w ht (rect w ht * n) (rect w ht) (h3 w rfl) (h4 ht rfl) hn1 rfl ?_⟩
          simpa [effectiveArea, smallest, conductingArea, hn, hollow, hf] using h
    | foil =>
      cases hw : width with
      | none => simp [effectiveArea, smallest, hw] at h
      | some w =>
        cases hh : height with
        | none => simp [effectiveArea, smallest, hw, hh] at h
        | some ht =>
          subst hw hh
          have hn1 : n = 1 := by
            rcases hsimple with a | a | a
            · simp at a
            · simp at a
            · rw [hn] at a; simpa using a
          refine ⟨w, ht, n, rfl, rfl, hn, hflat w ht (w * (ht * n)) (w * ht) (h3 w rfl) (h4 ht rfl) hn1 (by ring) ?_⟩
          simpa [effectiveArea, smallest, conductingArea, hn, hollow, hf] using h
    | planar =>
      cases hw : width with
      | none => simp [effectiveArea, smallest, hw] at h
      | some w =>
        cases hh : height with
        | none => simp [effectiveArea, smallest, hw, hh] at h
        | some ht =>
          subst hw hh
          have hn1 : n = 1 := by
            rcases hsimple with a | a | a
            · simp at a
            · simp at a
            · rw [hn] at a; simpa using a
          refine ⟨w, ht, n, rfl, rfl, hn, hflat w ht (w * (ht * n)) (w * ht) (h3 w rfl) (h4 ht rfl) hn1 (by ring) ?_⟩
          simpa [effectiveArea, smallest, conductingArea, hn, hollow, hf] using h

theorem IsEffective.unique {π : K} {rect : K → K → K} {c : Conductor K} {skin e e' : K} (h : IsEffective π rect c skin e)
    (h' : IsEffective π rect c skin e') : e = e' := by
  obtain ⟨type, conductors, strand, diameter, width, height⟩ := c
  cases type <;> simp only [IsEffective] at h h'
  · obtain ⟨d, n, h1, h2, h3⟩ := h
    obtain ⟨d', n', h1', h2', h3'⟩ := h'
    simp_all
  · obtain ⟨d, n, h1, h2, h3⟩ := h
    obtain ⟨d', n', h1', h2', h3'⟩ := h'
    simp_all
  all_goals
    obtain ⟨w, ht, n, h1, h2, h3, h4⟩ := h
    obtain ⟨w', ht', n', h1', h2', h3', h4'⟩ := h'
    simp_all

/-- C170: at zero frequency all of the wire conducts. -/
theorem effective_dc (π : K) (rect : K → K → K) (c : Conductor K) (skin : K) (d : K) (hd : smallest c = some d) :
    effectiveArea π rect c 0 skin = conductingArea π rect c := by
  unfold effectiveArea
  rw [hd]
  cases conductingArea π rect c <;> simp

theorem disc_mono {π d skin skin' : K} (hπ : 0 < π) (hd : 0 < d) (hs : 0 ≤ skin) (hle : skin ≤ skin') :
    disc π d skin ≤ disc π d skin' := by
  unfold disc
  split_ifs with a b b
  · have : (d / 2 - skin') ^ 2 ≤ (d / 2 - skin) ^ 2 := pow_le_pow_left₀ (by linarith) (by linarith) 2
    nlinarith
  · have : 0 ≤ (d / 2 - skin) ^ 2 := sq_nonneg _
    nlinarith
  · exact absurd (hle.trans_lt b) a
  · exact le_refl _

theorem slab_mono {area w h skin skin' : K} (ha : 0 ≤ area) (hw : 0 < w) (hh : 0 < h) (hs : 0 ≤ skin) (hle : skin ≤ skin') :
    slab area w h skin ≤ slab area w h skin' := by
  unfold slab
  split_ifs with a b b
  · have h1 : skin' < w / 2 := b.trans_le (by linarith [min_le_left w h])
    have h2 : skin' < h / 2 := b.trans_le (by linarith [min_le_right w h])
    have : (w - 2 * skin') * (h - 2 * skin') / (w * h) ≤ (w - 2 * skin) * (h - 2 * skin) / (w * h) := by
      apply div_le_div_of_nonneg_right _ (mul_pos hw hh).le
      exact mul_le_mul (by linarith) (by linarith) (by linarith) (by linarith)
    exact mul_le_mul_of_nonneg_left (by linarith) ha
  · have := (slab_fraction hw hh hs a).1
    nlinarith
  · exact absurd (hle.trans_lt b) a
  · exact le_refl _

/-- C170 (partial: round conductors, or one flat conductor): the shallower the skin, the less of the wire conducts. -/
theorem effective_mono_partial {π : K} {rect : K → K → K} {c : Conductor K} {f f' skin skin' e e' : K} (hπ : 0 < π) (hc : Sized rect c)
    (hsimple : Simple c) (hf : f ≠ 0) (hf' : f' ≠ 0) (hs : 0 ≤ skin) (hle : skin ≤ skin') (h : effectiveArea π rect c f skin = some e)
    (h' : effectiveArea π rect c f' skin' = some e') : e ≤ e' := by
  have k := effective_is_partial hπ hc hsimple hf hs h
  have k' := effective_is_partial hπ hc hsimple hf' (hs.trans hle) h'
  obtain ⟨type, conductors, strand, diameter, width, height⟩ := c
  obtain ⟨h1, h2, h3, h4, h5⟩ := hc
  simp only at h1 h2 h3 h4
  cases type <;> simp only [IsEffective] at k k'
  · obtain ⟨d, n, a1, a2, a3⟩ := k
    obtain ⟨d', n', b1, b2, b3⟩ := k'
    rw [a2] at b2; rw [a1] at b1
    simp only [Option.some.injEq] at b1 b2
    subst b1 b2
    rw [a3, b3]
    exact mul_le_mul_of_nonneg_left (disc_mono hπ (h2 _ a1) hs hle) (Nat.cast_nonneg n)
  · obtain ⟨d, n, a1, a2, a3⟩ := k
    obtain ⟨d', n', b1, b2, b3⟩ := k'
    rw [a2] at b2; rw [a1] at b1
    simp only [Option.some.injEq] at b1 b2
    subst b1 b2
    rw [a3, b3]
    exact mul_le_mul_of_nonneg_left (disc_mono hπ (h1 _ a1) hs hle) (Nat.cast_nonneg n)
  all_goals
    obtain ⟨w, ht, n, a1, a2, a3, a4⟩ := k
    obtain ⟨w', ht', n', b1, b2, b3, b4⟩ := k'
    rw [a1] at b1; rw [a2] at b2; rw [a3] at b3
    simp only [Option.some.injEq] at b1 b2 b3
    subst b1 b2 b3
    rw [a4, b4]
    have hw := h3 _ a1
    have hh := h4 _ a2
    first
      | exact mul_le_mul_of_nonneg_left (slab_mono (h5 _ _ hw hh).le hw hh hs hle) (Nat.cast_nonneg n)
      | exact mul_le_mul_of_nonneg_left (slab_mono (mul_pos hw hh).le hw hh hs hle) (Nat.cast_nonneg n)

/-- The data of a wire are complete for its type. -/
def Complete (c : Conductor K) : Prop :=
  (∃ n, conductorsOf c = some n) ∧ match c.type with
    | .litz => ∃ d, c.strand = some d
    | .round => ∃ d, c.diameter = some d
    | _ => ∃ w h, c.width = some w ∧ c.height = some h

theorem disc_le {π d skin : K} (hπ : 0 < π) : disc π d skin ≤ π * (d / 2) ^ 2 := by
  unfold disc
  split_ifs
  · have : 0 ≤ (d / 2 - skin) ^ 2 := sq_nonneg _
    nlinarith
  · exact le_refl _

theorem disc_pos {π d skin : K} (hπ : 0 < π) (hd : 0 < d) (hs : 0 < skin) : 0 < disc π d skin := by
  unfold disc
  split_ifs with h
  · have : (d / 2 - skin) ^ 2 < (d / 2) ^ 2 := pow_lt_pow_left₀ (by linarith) (by linarith) (by norm_num)
    nlinarith
  · positivity

theorem slab_pos {area w h skin : K} (ha : 0 < area) (hw : 0 < w) (hh : 0 < h) (hs : 0 < skin) : 0 < slab area w h skin := by
  unfold slab
  split_ifs with a
  · have h1 : skin < w / 2 := a.trans_le (by linarith [min_le_left w h])
    have h2 : skin < h / 2 := a.trans_le (by linarith [min_le_right w h])
    have : (w - 2 * skin) * (h - 2 * skin) / (w * h) < 1 := by
      rw [div_lt_one (mul_pos hw hh)]
      exact mul_lt_mul'' (by linarith) (by linarith) (by linarith) (by linarith)
    exact mul_pos ha (by linarith)
  · exact ha

theorem slab_le {area w h skin : K} (ha : 0 ≤ area) (hw : 0 < w) (hh : 0 < h) (hs : 0 ≤ skin) : slab area w h skin ≤ area := by
  unfold slab
  split_ifs with a
  · have := (slab_fraction hw hh hs a).1
    nlinarith
  · exact le_refl _

/-- C170 (partial: round conductors, or one flat conductor): a complete wire always has an effective area; it is not more than its
conducting area, and positive if it has conductors. -/
theorem effective_bounds_partial {π : K} {rect : K → K → K} {c : Conductor K} {f skin : K} (hπ : 0 < π) (hc : Sized rect c)
    (hsimple : Simple c) (hcomplete : Complete c) (hf : f ≠ 0) (hs : 0 < skin) :
    ∃ e a n, effectiveArea π rect c f skin = some e ∧ conductingArea π rect c = some a ∧ conductorsOf c = some n ∧ e ≤ a ∧ (0 < n → 0 < e) := by
  obtain ⟨⟨n, hn⟩, hdata⟩ := hcomplete
  have key : ∃ e a, effectiveArea π rect c f skin = some e ∧ conductingArea π rect c = some a := by
    obtain ⟨type, conductors, strand, diameter, width, height⟩ := c
    obtain ⟨h1, h2, h3, h4, h5⟩ := hc
    simp only at h1 h2 h3 h4 hdata
    have hround : ∀ d : K, 0 < d → skin < d / 2 → ¬ (π * (d / 2) ^ 2 * n - π * (d / 2 - skin) ^ 2 * n < 0) := by
      intro d hd hlt
      have : (d / 2 - skin) ^ 2 ≤ (d / 2) ^ 2 := pow_le_pow_left₀ (by linarith) (by linarith) 2
      have hn0 : (0 : K) ≤ n := Nat.cast_nonneg n
      have : π * (d / 2 - skin) ^ 2 * n ≤ π * (d / 2) ^ 2 * n :=
        mul_le_mul_of_nonneg_right (mul_le_mul_of_nonneg_left this hπ.le) hn0
      linarith
    have hround' : ∀ d : K, ¬ (π * (d / 2) ^ 2 * n < 0) := by
      intro d
      have : 0 ≤ π * (d / 2) ^ 2 * n := mul_nonneg (mul_nonneg hπ.le (sq_nonneg _)) (Nat.cast_nonneg n)
      linarith
    have hflat : ∀ w h area : K, 0 < w → 0 < h → 0 ≤ area → n = 1 → skin < min w h / 2 →
        ¬ (area - (w - skin * 2) * (h - skin * 2) * n * (area / (w * h)) < 0) := by
      intro w h area hw hh ha hn1 hlt
      subst hn1
      rw [Nat.cast_one, flat_single area w h skin hw.ne' hh.ne']
      have := (slab_fraction hw hh hs.le hlt).2
      have := mul_nonneg ha (by linarith : 0 ≤ 1 - (w - 2 * skin) * (h - 2 * skin) / (w * h))
      linarith
    cases type <;> simp only at hdata
    · obtain ⟨d, rfl⟩ := hdata
      simp only [effectiveArea, smallest, conductingArea, hn, hollow, hf, if_false, Option.map_some]
      split_ifs with a b b
      · exact absurd b (hround d (h2 d rfl) a)
      · exact ⟨_, _, rfl, rfl⟩
      · exact absurd b (hround' d)
      · exact ⟨_, _, rfl, rfl⟩
    · obtain ⟨d, rfl⟩ := hdata
      simp only [effectiveArea, smallest, conductingArea, hn, hollow, hf, if_false, Option.map_some]
      split_ifs with a b b
      · exact absurd b (hround d (h1 d rfl) a)
      · exact ⟨_, _, rfl, rfl⟩
      · exact absurd b (hround' d)
      · exact ⟨_, _, rfl, rfl⟩
    all_goals
      obtain ⟨w, ht, rfl, rfl⟩ := hdata
      have hn1 : n = 1 := by
        rcases hsimple with a | a | a
        · simp at a
        · simp at a
        · rw [hn] at a; simpa using a
      have hw := h3 w rfl
      have hh := h4 ht rfl
      have hn0 : (0 : K) ≤ n := Nat.cast_nonneg n
      have p1 : 0 ≤ rect w ht * n := mul_nonneg (h5 w ht hw hh).le hn0
      have p2 : 0 ≤ w * (ht * n) := mul_nonneg hw.le (mul_nonneg hh.le hn0)
      simp only [effectiveArea, smallest, conductingArea, hn, hollow, hf, if_false]
      split_ifs with a b b
      · first
          | exact absurd b (hflat w ht _ hw hh p1 hn1 a)
          | exact absurd b (hflat w ht _ hw hh p2 hn1 a)
      · exact ⟨_, _, rfl, rfl⟩
      · linarith
      · exact ⟨_, _, rfl, rfl⟩
  obtain ⟨e, a, he, ha⟩ := key
  refine ⟨e, a, n, he, ha, hn, ?_⟩
  have k := effective_is_partial hπ hc hsimple hf hs.le he
  obtain ⟨type, conductors, strand, diameter, width, height⟩ := c
  obtain ⟨h1, h2, h3, h4, h5⟩ := hc
  simp only at h1 h2 h3 h4
  have hn0 : (0 : K) ≤ n := Nat.cast_nonneg n
  cases type <;> simp only [IsEffective] at k
  · obtain ⟨d, m, a1, a2, a3⟩ := k
    rw [hn] at a2
    simp only [Option.some.injEq] at a2
    subst a2
    subst a1
    simp only [conductingArea, hn, Option.map_some, Option.some.injEq] at ha
    rw [a3, ← ha]
    refine ⟨?_, fun p => mul_pos (Nat.cast_pos.mpr p) (disc_pos hπ (h2 d rfl) hs)⟩
    rw [mul_comm (π * (d / 2) ^ 2)]
    exact mul_le_mul_of_nonneg_left (disc_le hπ) hn0
  · obtain ⟨d, m, a1, a2, a3⟩ := k
    rw [hn] at a2
    simp only [Option.some.injEq] at a2
    subst a2
    subst a1
    simp only [conductingArea, hn, Option.map_some, Option.some.injEq] at ha
    rw [a3, ← ha]
    refine ⟨?_, fun p => mul_pos (Nat.cast_pos.mpr p) (disc_pos hπ (h1 d rfl) hs)⟩
    rw [mul_comm (π * (d / 2) ^ 2)]
    exact mul_le_mul_of_nonneg_left (disc_le hπ) hn0
  all_goals
    obtain ⟨w, ht, m, a1, a2, a3, a4⟩ := k
    rw [hn] at a3
    simp only [Option.some.injEq] at a3
    subst a3
    subst a1 a2
    simp only [conductingArea, hn, Option.some.injEq] at ha
    have hw := h3 w rfl
    have hh := h4 ht rfl
    rw [a4, ← ha]
    first
      | refine ⟨?_, fun p => mul_pos (Nat.cast_pos.mpr p) (slab_pos (h5 w ht hw hh) hw hh hs)⟩
        rw [mul_comm (rect w ht)]
        exact mul_le_mul_of_nonneg_left (slab_le (h5 w ht hw hh).le hw hh hs.le) hn0
      | refine ⟨?_, fun p => mul_pos (Nat.cast_pos.mpr p) (slab_pos (mul_pos hw hh) hw hh hs)⟩
        rw [← mul_assoc, mul_comm (w * ht)]
        exact mul_le_mul_of_nonneg_left (slab_le (mul_pos hw hh).le hw hh hs.le) hn0

/-- C170 (fails): several foils side by side count their number twice in what does not conduct: when the skin leaves more than one part in
`n` of each without current, the wire is refused. -/
theorem foils_refused (π : K) (rect : K → K → K) (n : ℕ) (w h f skin : K) (hw : 0 < w) (hh : 0 < h) (hf : f ≠ 0)
    (hs : skin < min w h / 2) (hn : 0 < n) (hp : w * h < n * ((w - 2 * skin) * (h - 2 * skin))) :
    effectiveArea π rect { type := .foil, conductors := some n, strand := none, diameter := none, width := some w, height := some h } f skin = none := by
  simp only [effectiveArea, smallest, conductingArea, conductorsOf, hollow, hf, hs, if_true, if_false]
  rw [if_pos]
  have hn' : (0 : K) < n := Nat.cast_pos.mpr hn
  have e : w * (h * n) - (w - skin * 2) * (h - skin * 2) * n * (w * (h * n) / (w * h)) = n * (w * h - n * ((w - 2 * skin) * (h - 2 * skin))) := by
    field_simp
  rw [e]
  exact mul_neg_of_pos_of_neg hn' (by linarith)

/-- C170 (fails): two foils of 1 by 10 with a skin of a tenth are refused, and one alone is not. -/
theorem foils_witness : effectiveArea (22 / 7 : ℚ) (fun w h => w * h)
      { type := .foil, conductors := some 2, strand := none, diameter := none, width := some 1, height := some 10 } 1 (1 / 10) = none ∧
    effectiveArea (22 / 7 : ℚ) (fun w h => w * h)
      { type := .foil, conductors := some 1, strand := none, diameter := none, width := some 1, height := some 10 } 1 (1 / 10) = some (54 / 25) := by
  decide +kernel

/-- C170 (fails): with a deeper skin, they have less area than twice one. -/
theorem foils_short : effectiveArea (22 / 7 : ℚ) (fun w h => w * h)
      { type := .foil, conductors := some 2, strand := none, diameter := none, width := some 1, height := some 10 } 1 (3 / 10) = some (124 / 25) ∧
    effectiveArea (22 / 7 : ℚ) (fun w h => w * h)
      { type := .foil, conductors := some 1, strand := none, diameter := none, width := some 1, height := some 10 } 1 (3 / 10) = some (156 / 25) := by
  decide +kernel

/-- C170: the area of a rectangle with rounded corners is between a half and one and a half times that of the rectangle, so it is positive. -/
theorem rectangular_bounds (proportion : Option (K → K)) (w h : K) (hw : 0 < w) (hh : 0 < h) :
    w * h / 2 ≤ rectangularArea proportion w h ∧ rectangularArea proportion w h ≤ 3 / 2 * (w * h) ∧ 0 < rectangularArea proportion w h := by
  have hp : 0 < w * h := mul_pos hw hh
  unfold rectangularArea
  cases proportion with
  | none => exact ⟨by simp only; linarith, by simp only; linarith, hp⟩
  | some p =>
    simp only
    split_ifs with c
    · exact ⟨by linarith, by linarith, hp⟩
    · push Not at c
      obtain ⟨c1, c2, c3, c4⟩ := c
      exact ⟨c2, mul_le_mul_of_nonneg_right c3 hp.le, c1⟩

/-- C170: when the catalogue says a proportion between a half and one and a half, the area is that proportion of the rectangle, and otherwise it is the
rectangle itself. -/
theorem rectangular_interpolated (p : K → K) (w h : K) (hw : 0 < w) (hh : 0 < h) :
    (1 / 2 ≤ p (w * h) → p (w * h) ≤ 3 / 2 → rectangularArea (some p) w h = p (w * h) * (w * h)) ∧
      (p (w * h) < 1 / 2 ∨ 3 / 2 < p (w * h) → rectangularArea (some p) w h = w * h) := by
  have hp : 0 < w * h := mul_pos hw hh
  unfold rectangularArea
  refine ⟨fun h1 h2 => if_neg ?_, fun h1 => if_pos ?_⟩
  · push Not
    have : 1 / 2 * (w * h) ≤ p (w * h) * (w * h) := mul_le_mul_of_nonneg_right h1 hp.le
    exact ⟨by linarith, by linarith, h2, h1⟩
  · rcases h1 with h1 | h1
    · exact Or.inr (Or.inr (Or.inr h1))
    · exact Or.inr (Or.inr (Or.inl h1))

example : rectangularArea (some fun _ => (9 / 10 : ℚ)) 2 3 = 27 / 5 := by decide +kernel

/-- A litz wire of a hundred strands. -/
def hundred : Conductor ℚ where
  type := .litz
  conductors := some 100
  strand := some (1 / 10)
  diameter := none
  width := none
  height := none

example : Simple hundred ∧ effectiveArea (22 / 7 : ℚ) (fun w h => w * h) hundred 1 (1 / 40) = some (33 / 56) := by
  constructor
  · exact Or.inl rfl
  · decide +kernel

/-! ## C171 -/

section parallels

variable [FloorRing K]

/-- Enough parallels: with the current shared evenly the density is not above the maximum. -/
def Enough (rms area maximum : K) (n : ℤ) : Prop := rms ≤ maximum * (area * n)

/-- C171: the parallels needed for a current are enough, and one less is not. -/
theorem parallels_least (rms area maximum : K) (ha : 0 < area) (hm : 0 < maximum) (n : ℤ) :
    Enough rms area maximum n ↔ parallelsNeeded rms area maximum ≤ n := by
  unfold Enough parallelsNeeded density
  rw [Int.ceil_le, div_div, div_le_iff₀ (mul_pos ha hm)]
  constructor <;> intro h <;> linarith

theorem foldl_max_le (f : K × K → ℤ) : ∀ (l : List (K × K)) (a n : ℤ), l.foldl (fun n p => max n (f p)) a ≤ n ↔ a ≤ n ∧ ∀ p ∈ l, f p ≤ n
  | [], a, n => by simp
  | p :: l, a, n => by
    rw [List.foldl_cons, foldl_max_le f l, max_le_iff]
    simp only [List.mem_cons, forall_eq_or_imp]
    tauto

/-- C171: those needed for all operating points are the least number that is enough for each. -/
theorem parallels_all (maximum : K) (hm : 0 < maximum) (points : List (K × K)) (ha : ∀ p ∈ points, 0 < p.2) (n : ℤ) :
    (0 ≤ n ∧ ∀ p ∈ points, Enough p.1 p.2 maximum n) ↔ parallelsNeededAll maximum points ≤ n := by
  unfold parallelsNeededAll
  rw [foldl_max_le (fun p => parallelsNeeded p.1 p.2 maximum)]
  exact and_congr_right fun _ => forall₂_congr fun p hp => parallels_least _ _ _ (ha p hp) hm n

/-- C171: a current asks for at least one parallel; none, for none. -/
theorem parallels_positive (rms area maximum : K) (ha : 0 < area) (hm : 0 < maximum) (hr : 0 ≤ rms) :
    (0 < parallelsNeeded rms area maximum ↔ 0 < rms) ∧ (rms = 0 → parallelsNeeded rms area maximum = 0) := by
  unfold parallelsNeeded density
  refine ⟨?_, fun h => by simp [h]⟩
  rw [Int.ceil_pos]
  constructor
  · intro h
    rcases hr.lt_or_eq with h' | h'
    · exact h'
    · rw [← h'] at h; simp at h
  · intro h
    positivity

example : parallelsNeededAll (5 : ℚ) [(9, 1), (21, 2), (10, 1)] = 3 := by decide +kernel

end parallels

end Verif.Wire
