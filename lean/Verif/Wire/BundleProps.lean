import Mathlib.Data.Rat.Floor
import Mathlib.Order.Monotone.Basic
import Mathlib.Tactic.FieldSimp
import Mathlib.Tactic.Linarith
import Mathlib.Tactic.NormNum
import Mathlib.Tactic.Positivity
import Mathlib.Tactic.Ring
import Verif.Wire.Bundle

/-!
# Properties of bundles, equivalent wires, wires cut to a section and layers of insulation
-/

namespace Verif.Wire

open Verif.WireByDim (WireType)

set_option linter.unusedSectionVars false

/-! ## C173 -/

theorem packing_least (iec : Bool) (n : ℕ) : 1.155 ≤ packing iec n := by
  unfold packing
  have : (1.155 : ℝ) ≤ Real.sqrt 2 := Real.le_sqrt_of_sq_le (by norm_num)
  split_ifs <;> first | exact this | norm_num

theorem bound_root : (1 : ℝ) / Real.sqrt 0.9069 ≤ 1.155 := by
  have h : (0.9 : ℝ) ≤ Real.sqrt 0.9069 := Real.le_sqrt_of_sq_le (by norm_num)
  rw [div_le_iff₀ (by linarith)]
  nlinarith

theorem packed_of {p s : ℝ} (n : ℕ) (hp : 1 / Real.sqrt 0.9069 ≤ p) : n * s ^ 2 ≤ 0.9069 * (p * Real.sqrt n * s) ^ 2 := by
  have hr : 0 < Real.sqrt 0.9069 := Real.sqrt_pos.mpr (by norm_num)
  have h1 : 1 ≤ p * Real.sqrt 0.9069 := by rwa [div_le_iff₀ hr] at hp
  have h2 : 1 ≤ (p * Real.sqrt 0.9069) ^ 2 := one_le_pow₀ h1
  rw [mul_pow, Real.sq_sqrt (by norm_num)] at h2
  have h3 : (p * Real.sqrt n * s) ^ 2 = p ^ 2 * (n * s ^ 2) := by
    rw [mul_pow, mul_pow, Real.sq_sqrt (Nat.cast_nonneg n)]
    ring
  rw [h3]
  have h4 : 0 ≤ (n : ℝ) * s ^ 2 := mul_nonneg (Nat.cast_nonneg n) (sq_nonneg s)
  nlinarith

/-- C173: the strands fit in the bundle: their area is not above that circles can cover of it. -/
theorem bare_packed (iec : Bool) (n : ℕ) (strand : ℝ) : n * strand ^ 2 ≤ 0.9069 * bareLitz iec n strand ^ 2 :=
  packed_of n (bound_root.trans (packing_least iec n))

/-- C173: and so they do inside of the insulation of insulated litz, whatever the catalogue says. -/
theorem insulated_packed (catalogue : ℝ) (iec : Bool) (n : ℕ) (strand : ℝ) (layers : ℤ) (thickness : ℝ) :
    n * strand ^ 2 ≤ 0.9069 * (insulatedLitz catalogue iec n strand layers thickness - 2 * thickness * layers) ^ 2 := by
  unfold insulatedLitz
  rw [add_sub_cancel_right]
  apply packed_of
  split_ifs with h
  · exact bound_root.trans (packing_least iec n)
  · exact not_lt.mp h

theorem packing_sq (n : ℕ) : packing true n ^ 2 = if n = 2 then 2 else if n < 12 then 1.25 ^ 2 else if n < 16 then 1.26 ^ 2 else if n < 20 then 1.27 ^ 2 else 1.28 ^ 2 := by
  unfold packing
  simp only [if_true]
  split_ifs <;> first | rfl | exact Real.sq_sqrt (by norm_num)

theorem packing_pos (iec : Bool) (n : ℕ) : 0 < packing iec n := lt_of_lt_of_le (by norm_num) (packing_least iec n)

theorem step (iec : Bool) (n : ℕ) : packing iec n * Real.sqrt n < packing iec (n + 1) * Real.sqrt ((n + 1 : ℕ) : ℝ) := by
  apply lt_of_pow_lt_pow_left₀ 2 (mul_nonneg (packing_pos iec _).le (Real.sqrt_nonneg _))
  rw [mul_pow, mul_pow, Real.sq_sqrt (Nat.cast_nonneg n), Real.sq_sqrt (Nat.cast_nonneg (n + 1))]
  cases iec with
  | false =>
    simp only [packing, Bool.false_eq_true, if_false]
    push_cast
    nlinarith
  | true =>
    rw [packing_sq, packing_sq]
    have h0 : (0 : ℝ) ≤ n := Nat.cast_nonneg n
    push_cast
    by_cases h1 : n = 0
    · subst h1; norm_num
    by_cases h2 : n = 1
    · subst h2; norm_num
    by_cases h3 : n = 2
    · subst h3; norm_num
    have e1 : n + 1 ≠ 2 := by omega
    rw [if_neg h3, if_neg h2]
    split_ifs <;> first | omega | nlinarith

/-- C173: the more strands, the wider the bundle. -/
theorem bare_more (iec : Bool) (strand : ℝ) (hs : 0 < strand) : StrictMono fun n : ℕ => bareLitz iec n strand := by
  apply strictMono_nat_of_lt_succ
  intro n
  exact mul_lt_mul_of_pos_right (step iec n) hs

/-- C173: a bundle of strands is wider than one of them. -/
theorem bare_wider (iec : Bool) (n : ℕ) (hn : 0 < n) (strand : ℝ) (hs : 0 < strand) : strand < bareLitz iec n strand := by
  have h1 : bareLitz iec 1 strand ≤ bareLitz iec n strand := (bare_more iec strand hs).monotone hn
  have h2 : strand < bareLitz iec 1 strand := by
    unfold bareLitz
    have := packing_least iec 1
    rw [Nat.cast_one, Real.sqrt_one, mul_one]
    nlinarith
  exact h2.trans_le h1

/-- C173: each of one or two servings adds 25.5 micrometres at each side, none adds nothing, and more are refused. -/
theorem served_layers (iec : Bool) (n : ℕ) (strand : ℝ) (layers : ℕ) :
    servedLitz iec n strand layers = if layers ≤ 2 then some (bareLitz iec n strand + 2 * (layers * 0.0000255)) else none := by
  unfold servedLitz serving
  by_cases h0 : layers = 0
  · subst h0; simp
  · have e0 : ¬ ((layers : ℤ) = 0) := by omega
    rw [if_neg e0]
    by_cases h : layers ≤ 2
    · rw [if_pos h, if_pos (by omega)]
      simp only [Option.map_some, Option.some.injEq, Int.cast_natCast]
      ring
    · rw [if_neg h, if_neg (by omega)]
      rfl

/-- C173 (fails): a negative number of layers is not refused, and makes the bundle thinner. -/
theorem served_negative (iec : Bool) (n : ℕ) (strand : ℝ) : ∃ d, servedLitz iec n strand (-1) = some d ∧ d < bareLitz iec n strand := by
  refine ⟨_, rfl, ?_⟩
  norm_num

/-! ## C175 -/

section equivalent

variable {K : Type} [Field K] [LinearOrder K] [IsStrictOrderedRing K] [FloorRing K]

/-- C175: a wire of the type asked is its own equivalent. -/
theorem equivalent_same (π : K) (root : K → K) (closest : WireType → K → Option (Plain K)) (skin : K) (old : Plain K) :
    equivalent π root closest skin old old.type = some old := by
  simp [equivalent]

/-- C175: an equivalent wire is of the type asked. -/
theorem equivalent_type {π : K} {root : K → K} {closest : WireType → K → Option (Plain K)} {skin : K} {old w : Plain K} {new : WireType}
    (h : equivalent π root closest skin old new = some w) : w.type = new := by
  unfold equivalent at h
  split_ifs at h with h1 h2 h3 h4
  · simp only [Option.some.injEq] at h
    rw [← h, h1]
  · obtain ⟨s, -, hs⟩ := Option.map_eq_some_iff.mp h
    rw [← hs, h2]
  · obtain ⟨s, -, hs⟩ := Option.map_eq_some_iff.mp h
    rw [← hs]
  · obtain ⟨s, -, hs⟩ := Option.map_eq_some_iff.mp h
    rw [← hs]

/-- C175 (fails): when the catalogue has a wire of each type, every wire has an equivalent of every type but a planar one as a foil. -/
theorem equivalent_refused (π : K) (root : K → K) (closest : WireType → K → Option (Plain K)) (hc : ∀ t d, closest t d ≠ none) (skin : K)
    (old : Plain K) (new : WireType) : equivalent π root closest skin old new = none ↔ old.type = .planar ∧ new = .foil := by
  unfold equivalent
  constructor
  · intro h
    by_contra hp
    split_ifs at h with h1 h2 h4
    · exact hc _ _ (Option.map_eq_none_iff.mp h)
    · exact hc _ _ (Option.map_eq_none_iff.mp h)
    · exact hc _ _ (Option.map_eq_none_iff.mp h)
  · rintro ⟨h1, h2⟩
    rw [if_neg (by rw [h1, h2]; decide), if_neg (by rw [h2]; decide), if_pos ⟨h1, h2⟩]

/-- C175 (partial: when the catalogue has a round wire of just the skin depth): equivalent litz has the area of the wire to within half a
strand. -/
theorem equivalent_area_partial {π : K} (hπ : 0 < π) {root : K → K} {closest : WireType → K → Option (Plain K)} {skin : K} (hs : 0 < skin)
    {old w strand : Plain K} (ho : old.type ≠ .litz) (ha : 0 ≤ old.area) (hstrand : closest .round skin = some strand) (he : strand.minimum = skin)
    (h : equivalent π root closest skin old .litz = some w) :
    2 * abs (w.area - old.area) ≤ π * (skin / 2) ^ 2 ∧ w.area = π * (skin / 2) ^ 2 * w.conductors := by
  unfold equivalent at h
  rw [if_neg ho, if_pos rfl, hstrand] at h
  simp only [Option.map_some, Option.some.injEq] at h
  subst h
  simp only [he]
  set a := π * (skin / 2) ^ 2 with hadef
  have hapos : 0 < a := by positivity
  set x := old.area / a with hx
  have hx0 : 0 ≤ x := div_nonneg ha hapos.le
  have hfl : 0 ≤ ⌊x + 1 / 2⌋ := Int.floor_nonneg.mpr (by linarith)
  have hcast : ((⌊x + 1 / 2⌋.toNat : ℕ) : K) = (⌊x + 1 / 2⌋ : K) := by
    have : ((⌊x + 1 / 2⌋.toNat : ℕ) : ℤ) = ⌊x + 1 / 2⌋ := Int.toNat_of_nonneg hfl
    exact_mod_cast congrArg (fun z : ℤ => (z : K)) this
  have h1 := Int.floor_le (x + 1 / 2)
  have h2 := Int.lt_floor_add_one (x + 1 / 2)
  have hold : old.area = a * x := by
    rw [hx]
    field_simp
  refine ⟨?_, trivial⟩
  rw [hcast, hold, ← mul_sub, abs_mul, abs_of_pos hapos]
  have : 2 * abs ((⌊x + 1 / 2⌋ : K) - x) ≤ 1 := by
    have : abs ((⌊x + 1 / 2⌋ : K) - x) ≤ 1 / 2 := abs_le.mpr ⟨by linarith, by linarith⟩
    linarith
  nlinarith

end equivalent

/-- A catalogue with one wire of each type. -/
def one (t : WireType) (_ : ℚ) : Option (Plain ℚ) := some { type := t, area := 11 / 14, minimum := 1 }

/-- C175 (fails): the number of strands is that for strands of the skin depth and the strand is the closest of the catalogue: an area of 44
became one of 11. -/
theorem equivalent_area_fails : equivalent (22 / 7) (fun x => x) one 2 { type := .round, area := 44, minimum := 0 } .litz =
    some { type := .litz, area := 11, minimum := 1, conductors := 14 } := by
  decide +kernel

/-- C175 (fails): a wire of less than half the area of a strand becomes litz of no strands. -/
theorem equivalent_empty : equivalent (22 / 7) (fun x => x) one 2 { type := .round, area := 1, minimum := 1 } .litz =
    some { type := .litz, area := 0, minimum := 1, conductors := 0 } := by
  decide +kernel

example : (∀ t d, one t d ≠ none) ∧ equivalent (22 / 7) (fun x => x) one 1 { type := .round, area := 44, minimum := 0 } .litz =
    some { type := .litz, area := 44, minimum := 1, conductors := 56 } := by
  constructor
  · intro t d; simp [one]
  · decide +kernel

/-! ## C176 -/

section cut

variable {K : Type} [Field K] [LinearOrder K] [IsStrictOrderedRing K]

/-- C176: a foil cut to a section is as high as the section less a twentieth, keeps its width, and has no more outside than it conducts. -/
theorem foil_cut (height : K) (hh : 0 < height) (w : Flat K) : let c := cutFoil height w
    c.outerHeight < height ∧ c.outerHeight = height * 19 / 20 ∧ c.conductingHeight = c.outerHeight ∧ c.conductingWidth = w.conductingWidth ∧
      c.outerWidth = w.conductingWidth := by
  refine ⟨?_, ?_, rfl, rfl, rfl⟩
  · simp only [cutFoil]; nlinarith
  · simp only [cutFoil]; ring

/-- C176: a planar wire cut to a section is as wide as the section less a twentieth, keeps its height, and its area is that it conducts. -/
theorem planar_cut (width : K) (hh : 0 < width) (w : Flat K) : let c := cutPlanar width w
    c.outerWidth < width ∧ c.outerWidth = width * 19 / 20 ∧ c.conductingWidth = c.outerWidth ∧ c.conductingHeight = w.conductingHeight ∧
      c.outerHeight = w.conductingHeight ∧ c.area = c.conductingWidth * c.conductingHeight := by
  refine ⟨?_, ?_, rfl, rfl, rfl, rfl⟩
  · simp only [cutPlanar]; nlinarith
  · simp only [cutPlanar]; ring

/-- C176 (fails): cutting a foil leaves the area stored with it, whatever it conducts now. -/
theorem foil_area (height : K) (w : Flat K) : (cutFoil height w).area = w.area := rfl

/-- C176 (fails): a foil of 1 by 2 with its area cut to a section of 20 keeps the area of 2, and conducts 19. -/
theorem foil_area_stale : cutFoil (20 : ℚ) { conductingWidth := 1, conductingHeight := 2, outerWidth := 1, outerHeight := 2, area := 2 } =
    ({ conductingWidth := 1, conductingHeight := 19, outerWidth := 1, outerHeight := 19, area := 2 } : Flat ℚ) := by
  decide +kernel

/-- C176: cutting twice is cutting to the last section. -/
theorem cut_again (a b : K) (w : Flat K) : cutFoil b (cutFoil a w) = cutFoil b w ∧ cutPlanar b (cutPlanar a w) = cutPlanar b w := ⟨rfl, rfl⟩

variable [FloorRing K]

/-- C176: the layers a coating is worth are as many as can stand the voltage each with 85 % of its breakdown voltage, and not more than it has
(one if it does not say). -/
theorem layers_worth (breakdown voltage : K) (layers : Option ℤ) (hv : 0 < voltage) :
    ∃ n, equivalentLayers true (some breakdown) layers voltage = .count n ∧
      ∀ k : ℤ, k ≤ n ↔ k ≤ layers.getD 1 ∧ k * voltage ≤ breakdown * (85 / 100) := by
  refine ⟨min (layers.getD 1) ⌊breakdown * (85 / 100) / voltage⌋, by simp [equivalentLayers, hv.ne'], fun k => ?_⟩
  rw [le_min_iff, Int.le_floor, le_div_iff₀ hv]

/-- C176: no coating is worth no layer; one without a breakdown voltage is refused; a zero voltage has no answer. -/
theorem layers_others (breakdown : Option K) (layers : Option ℤ) (voltage : K) :
    equivalentLayers false breakdown layers voltage = .count 0 ∧ equivalentLayers true (none : Option K) layers voltage = .throws ∧
      ∀ b : K, equivalentLayers true (some b) layers 0 = .undefined := by
  refine ⟨rfl, rfl, fun b => by simp [equivalentLayers]⟩

/-- C176: a coating with no thickness stated is the thickest that fits between conductor and outside in both directions. -/
theorem thickness_fits (ow oh cw ch t : K) : t ≤ coatingThickness true none none ow oh cw ch ↔ cw + 2 * t ≤ ow ∧ ch + 2 * t ≤ oh := by
  simp only [coatingThickness, Bool.not_true, Bool.false_eq_true, if_false]
  rw [le_min_iff, le_div_iff₀ (by norm_num), le_div_iff₀ (by norm_num)]
  constructor <;> rintro ⟨a, b⟩ <;> constructor <;> linarith

/-- C176: and one stated is the one stated, whole or by layers; without a coating, zero. -/
theorem thickness_stated (t : K) (n : ℤ) (layers : Option (K × ℤ)) (stated : Option K) (ow oh cw ch : K) :
    coatingThickness true (some t) layers ow oh cw ch = t ∧ coatingThickness true none (some (t, n)) ow oh cw ch = t * n ∧
      coatingThickness false stated layers ow oh cw ch = 0 := by
  refine ⟨by cases layers <;> rfl, rfl, rfl⟩

end cut

example : equivalentLayers true (some (6000 : ℚ)) (some 3) 2000 = .count 2 := by decide +kernel

end Verif.Wire
