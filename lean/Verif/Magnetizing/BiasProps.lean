import Verif.Magnetizing.Bias
import Mathlib.Algebra.Order.Field.Rat
import Mathlib.Tactic.Linarith
import Mathlib.Tactic.Positivity
import Mathlib.Tactic.FieldSimp
import Mathlib.Tactic.Ring
import Mathlib.Tactic.NormNum

/-! # The magnetizing inductance at an operating point (C237, C238) -/

set_option linter.unusedSectionVars false

namespace Verif.Magnetizing.Bias

variable {K S : Type} [Field K] [LinearOrder K] [IsStrictOrderedRing K]

/-! ## C237: the inductance and its bias -/

/-- A permeability is consistent with a magnetizing current: it is what the material has with the bias that there is with it. -/
def Consistent (w : World K S) (magnetizing : S) (permeability : K) : Prop :=
  permeability = w.permeability (some (w.offset magnetizing * w.turns / (w.reluctance permeability * w.area * (permeability * w.vacuum))))

/-- The inductance with a magnetizing current: that of a permeability that is consistent with it. -/
def TrueInductance (w : World K S) (magnetizing : S) (inductance : K) : Prop :=
  ∃ permeability, Consistent w magnetizing permeability ∧ inductance * w.reluctance permeability = w.turns ^ 2

/-- A core: reluctance above zero, part of it goes with the inverse of the permeability and the rest is that of the gaps. -/
structure IsCore (w : World K S) (material gaps : K) : Prop where
  materialPos : 0 < material
  gapsNonneg : 0 ≤ gaps
  reluctance : ∀ p, 0 < p → w.reluctance p = material / p + gaps
  permeability : ∀ b, 0 < w.permeability b
  area : 0 < w.area
  vacuum : 0 < w.vacuum
  turns : 0 < w.turns

theorem reluctance_pos {w : World K S} {material gaps p : K} (h : IsCore w material gaps) (hp : 0 < p) : 0 < w.reluctance p := by
  have := h.materialPos; have := h.gapsNonneg
  rw [h.reluctance p hp]; positivity

theorem bias_eq {w : World K S} {material gaps : K} (h : IsCore w material gaps) (m : S) {p : K} (hp : 0 < p) :
    bias w m (w.reluctance p) p = w.offset m * w.turns / ((material + gaps * p) * w.area * w.vacuum) := by
  have := h.materialPos; have := h.gapsNonneg; have := h.area; have := h.vacuum
  unfold bias
  rw [h.reluctance p hp]
  have : 0 < material + gaps * p := by positivity
  field_simp

theorem consistent_iff {w : World K S} {material gaps : K} (h : IsCore w material gaps) (m : S) {p : K} (hp : 0 < p) :
    Consistent w m p ↔ p = w.permeability (some (w.offset m * w.turns / ((material + gaps * p) * w.area * w.vacuum))) := by
  have := h.materialPos; have := h.gapsNonneg; have := h.area; have := h.vacuum
  unfold Consistent
  rw [h.reluctance p hp]
  have : 0 < material + gaps * p := by positivity
  have e : (material / p + gaps) * w.area * (p * w.vacuum) = (material + gaps * p) * w.area * w.vacuum := by field_simp
  rw [e]

/-- **C237.** Without an operating point, or with one without excitations, it is the square of the turns over the reluctance without bias. -/
theorem inductance_alone {w : World K S} {material gaps : K} (h : IsCore w material gaps) :
    calculateAlone w * w.reluctance (w.permeability none) = w.turns ^ 2 ∧
      ∀ p : Point S, p.count = 0 → calculate w p = .ok (calculateAlone w) p := by
  have := reluctance_pos h (h.permeability none)
  refine ⟨?_, fun p hp => ?_⟩
  · unfold calculateAlone inductanceOf; field_simp
  · unfold calculate; rw [if_pos hp]; rfl

/-- **C237.** Of a core without gaps the inductance is the one with its magnetizing current.

Partial: see `true_below` and `not_the_true_one` for the cores with gaps. -/
theorem inductance_ungapped_partial {w : World K S} {material : K} (h : IsCore w material 0) (m : S) : TrueInductance w m (corrected w m) := by
  have hp0 := h.permeability none
  have hp1 := h.permeability (some (bias w m (w.reluctance (w.permeability none)) (w.permeability none)))
  refine ⟨w.permeability (some (bias w m (w.reluctance (w.permeability none)) (w.permeability none))), ?_, ?_⟩
  · rw [consistent_iff h m hp1, bias_eq h m hp0]
    simp
  · have := reluctance_pos h hp1
    unfold corrected inductanceOf
    field_simp

/-- **C237.** So it is of a material whose permeability does not depend on the bias, whatever the gaps. -/
theorem inductance_unbiased {w : World K S} {material gaps : K} (h : IsCore w material gaps) (hb : ∀ b, w.permeability (some b) = w.permeability none)
    (m : S) : TrueInductance w m (corrected w m) ∧ corrected w m = calculateAlone w := by
  have hp0 := h.permeability none
  have := reluctance_pos h hp0
  refine ⟨⟨w.permeability none, ?_, ?_⟩, ?_⟩
  · unfold Consistent; rw [hb]
  · unfold corrected inductanceOf; rw [hb]; field_simp
  · unfold corrected calculateAlone; rw [hb]

/-- **C237.** With gaps, and a permeability that falls with the bias, what is answered is no less than the inductance with the magnetizing current. -/
theorem true_below {w : World K S} {material gaps : K} (h : IsCore w material gaps) (hanti : ∀ a b, 0 ≤ a → a ≤ b → w.permeability (some b) ≤ w.permeability (some a))
    (hnone : ∀ b, 0 ≤ b → w.permeability (some b) ≤ w.permeability none) (m : S) (hoff : 0 ≤ w.offset m) {l p : K} (hp : 0 < p)
    (hc : Consistent w m p) (hl : l * w.reluctance p = w.turns ^ 2) : l ≤ corrected w m ∧ corrected w m ≤ calculateAlone w := by
  have hm := h.materialPos; have hg := h.gapsNonneg; have ha := h.area; have hv := h.vacuum; have ht := h.turns
  have hp0 := h.permeability none
  have hb0 : 0 ≤ bias w m (w.reluctance (w.permeability none)) (w.permeability none) := by
    rw [bias_eq h m hp0]; positivity
  have hp1 := h.permeability (some (bias w m (w.reluctance (w.permeability none)) (w.permeability none)))
  rw [consistent_iff h m hp] at hc
  have hple : p ≤ w.permeability none := by
    rw [hc]; exact hnone _ (by positivity)
  have hpp : p ≤ w.permeability (some (bias w m (w.reluctance (w.permeability none)) (w.permeability none))) := by
    rw [bias_eq h m hp0] at hb0 ⊢
    conv_lhs => rw [hc]
    apply hanti _ _ hb0
    gcongr
  have hR := reluctance_pos h hp
  have hR1 := reluctance_pos h hp1
  have hR0 := reluctance_pos h hp0
  have hle : ∀ a b : K, 0 < a → a ≤ b → w.reluctance b ≤ w.reluctance a := by
    intro a b h1 h2
    rw [h.reluctance a h1, h.reluctance b (by linarith)]
    gcongr
  refine ⟨?_, ?_⟩
  · unfold corrected inductanceOf
    rw [le_div_iff₀ hR1]
    have hl0 : 0 ≤ l := by
      by_contra hcon
      push Not at hcon
      nlinarith [mul_pos_of_neg_of_neg hcon (by linarith : -w.reluctance p < 0), sq_nonneg w.turns]
    calc l * w.reluctance _ ≤ l * w.reluctance p := by gcongr; exact hle _ _ hp hpp
      _ = w.turns ^ 2 := hl
  · unfold corrected calculateAlone inductanceOf
    gcongr
    exact hle _ _ hp1 (hnone _ hb0)

/-- A core with a gap whose permeability falls with the square of the bias. -/
def powder (windings : ℕ) : World ℚ ℚ where
  turns := 10
  area := 1
  vacuum := 1
  windings := windings
  toroidal := false
  choke := fun _ => false
  chokeCurrent := id
  flyback := fun _ => false
  multiportCurrent := id
  sameSide := false
  fromVoltage := fun _ v _ => v
  induced := fun _ _ => 0
  offset := id
  permeability := fun b => 1000 / (1 + (33 * b.getD 0) ^ 2)
  reluctance := fun p => 1000 / p + 1

/-- **C237.** With gaps it is not the inductance with the magnetizing current: more than twice as much is answered here. The gap takes less of the force as
the permeability falls, which only a further round would see. -/
theorem not_the_true_one : TrueInductance (powder 1) 10 (100 / 11) ∧ corrected (powder 1) 10 > 2 * (100 / 11) := by
  refine ⟨⟨100, ?_, ?_⟩, by decide +kernel⟩
  · unfold Consistent; decide +kernel
  · decide +kernel

/-- Case of the cores: this one, and what `true_below` asks of its permeability. -/
example : IsCore (powder 1) 1000 1 ∧ (∀ a b : ℚ, 0 ≤ a → a ≤ b → (powder 1).permeability (some b) ≤ (powder 1).permeability (some a)) ∧
    (∀ b : ℚ, 0 ≤ b → (powder 1).permeability (some b) ≤ (powder 1).permeability none) := by
  refine ⟨⟨by norm_num, by norm_num, fun p _ => rfl, fun b => ?_, by norm_num [powder], by norm_num [powder], by norm_num [powder]⟩,
    fun a b ha hab => ?_, fun b hb => ?_⟩
  · simp only [powder]; positivity
  · simp only [powder, Option.getD_some]; gcongr
  · simp only [powder, Option.getD_some, Option.getD_none]
    gcongr

/-! ## C238: where the magnetizing current comes from, and asking twice -/

/-- **C238.** A magnetizing current that is given is used where there is no voltage, and only there: otherwise it is written over. -/
theorem given_used {w : World K S} {p : Point S} (hc : p.count ≠ 0) {m c : S} (hm : p.magnetizing = some m) (hcur : p.current = some c)
    (hv : p.voltage = none) : calculate w p = .ok (corrected w m) { p with voltage := some (w.induced c (corrected w m)) } := by
  obtain ⟨count, voltage, current, magnetizing⟩ := p
  subst hm hcur hv
  unfold calculate
  rw [if_neg hc]
  rfl

/-- **C238.** Where there is a voltage the magnetizing current that is given makes no difference. -/
theorem given_ignored {w : World K S} {p : Point S} {v : S} (hv : p.voltage = some v) (m m' : Option S) {l l' : K} {q q' : Point S}
    (h : calculate w { p with magnetizing := m } = .ok l q) (h' : calculate w { p with magnetizing := m' } = .ok l' q') : l = l' := by
  obtain ⟨count, voltage, current, magnetizing⟩ := p
  subst hv
  unfold calculate at h h'
  have hs : source w { count := count, voltage := some v, current := current, magnetizing := m } v =
      source w { count := count, voltage := some v, current := current, magnetizing := m' } v := rfl
  dsimp only at h h'
  rw [hs] at h
  split at h
  · rename_i h0
    rw [if_pos h0] at h'
    simp only [Out.ok.injEq] at h h'
    rw [← h.1, ← h'.1]
  · rename_i h0
    rw [if_neg h0] at h'
    cases hsrc : source w { count := count, voltage := some v, current := current, magnetizing := m' } v with
    | none => rw [hsrc] at h; cases h
    | some o =>
      rw [hsrc] at h h'
      cases o with
      | none => cases h
      | some x =>
        simp only [Out.ok.injEq] at h h'
        rw [← h.1, ← h'.1]

/-- **C238.** What is left of the operating point always has a magnetizing current and a voltage. -/
theorem left_complete {w : World K S} {p q : Point S} {l : K} (hc : p.count ≠ 0) (h : calculate w p = .ok l q) :
    q.magnetizing.isSome ∧ q.voltage.isSome ∧ q.current = p.current ∧ (p.voltage.isSome → q.voltage = p.voltage) := by
  obtain ⟨count, voltage, current, magnetizing⟩ := p
  unfold calculate at h
  rw [if_neg hc] at h
  cases voltage with
  | none =>
    cases current with
    | none => simp at h
    | some c =>
      simp only [Out.ok.injEq] at h
      obtain ⟨_, rfl⟩ := h
      simp
  | some v =>
    dsimp only at h
    cases hsrc : source w { count := count, voltage := some v, current := current, magnetizing := magnetizing } v with
    | none => rw [hsrc] at h; cases h
    | some o =>
      rw [hsrc] at h
      cases o with
      | none => cases h
      | some x =>
        simp only [Out.ok.injEq] at h
        obtain ⟨_, rfl⟩ := h
        simp

/-- **C238.** Asking again with what is left gives the same inductance, and leaves the same, if the voltage was given, or if there is one winding and its
magnetizing current was not.

Partial: see `asked_twice` for the rest. -/
theorem repeatable_partial {w : World K S} {p q : Point S} {l : K} (h : calculate w p = .ok l q)
    (hcase : p.voltage.isSome ∨ (w.windings = 1 ∧ p.magnetizing = none)) : calculate w q = .ok l q := by
  obtain ⟨count, voltage, current, magnetizing⟩ := p
  by_cases hc : count = 0
  · unfold calculate at h
    rw [if_pos hc] at h
    simp only [Out.ok.injEq] at h
    obtain ⟨rfl, rfl⟩ := h
    unfold calculate
    rw [if_pos hc]
  unfold calculate at h
  rw [if_neg hc] at h
  cases voltage with
  | none =>
    cases current with
    | none => simp at h
    | some c =>
      rcases hcase with hcase | ⟨hw, hm⟩
      · cases hcase
      · dsimp only at hm
        subst hm
        simp only [Option.getD_none, Out.ok.injEq] at h
        obtain ⟨rfl, rfl⟩ := h
        unfold calculate
        rw [if_neg hc]
        simp [source, hw]
  | some v =>
    dsimp only at h
    cases hsrc : source w { count := count, voltage := some v, current := current, magnetizing := magnetizing } v with
    | none => rw [hsrc] at h; cases h
    | some o =>
      rw [hsrc] at h
      cases o with
      | none => cases h
      | some x =>
        simp only [Out.ok.injEq] at h
        obtain ⟨rfl, rfl⟩ := h
        have hs : source w { count := count, voltage := some v, current := current, magnetizing := some x } v =
            source w { count := count, voltage := some v, current := current, magnetizing := magnetizing } v := rfl
        unfold calculate
        rw [if_neg hc]
        dsimp only
        rw [hs, hsrc]

/-- **C238.** With two windings, and the current alone given, what is asked a second time has another answer: the first call left the voltage that the
current induces, and the second takes the magnetizing current from it, without the offset. -/
theorem asked_twice : ∃ l l' : ℚ, ∃ q : Point ℚ, calculate (powder 2) ⟨2, none, some 10, none⟩ = .ok l q ∧
    (∃ q' : Point ℚ, calculate (powder 2) q = .ok l' q') ∧ l' > 2 * l := by
  refine ⟨corrected (powder 2) 10, corrected (powder 2) 0, ⟨2, some 0, some 10, some 10⟩, by decide +kernel, ⟨⟨2, some 0, some 10, some 0⟩, by decide +kernel⟩,
    by decide +kernel⟩

/-- **C238.** Also with one winding, if the magnetizing current was given and is not the current. -/
theorem asked_twice_given : ∃ l l' : ℚ, ∃ q : Point ℚ, calculate (powder 1) ⟨1, none, some 10, some 0⟩ = .ok l q ∧
    (∃ q' : Point ℚ, calculate (powder 1) q = .ok l' q') ∧ l > 2 * l' := by
  refine ⟨corrected (powder 1) 0, corrected (powder 1) 10, ⟨1, some 0, some 10, some 0⟩, by decide +kernel, ⟨⟨1, some 0, some 10, some 10⟩, by decide +kernel⟩,
    by decide +kernel⟩

/-- **C238.** With voltages alone: with one excitation the magnetizing current comes from the voltage, with two to four it throws, and with more it is
undefined behaviour. -/
theorem voltage_alone {w : World K S} {p : Point S} {v : S} (hv : p.voltage = some v) (hcur : p.current = none) :
    (p.count = 1 → calculate w p = .ok (corrected w (w.fromVoltage none v (calculateAlone w)))
      { p with magnetizing := some (w.fromVoltage none v (calculateAlone w)) }) ∧
      (2 ≤ p.count → p.count ≤ 4 → calculate w p = .thrown p) ∧ (5 ≤ p.count → calculate w p = .undefined) := by
  obtain ⟨count, voltage, current, magnetizing⟩ := p
  subst hv hcur
  refine ⟨fun h1 => ?_, fun h1 h2 => ?_, fun h1 => ?_⟩
  · dsimp only at h1
    subst h1
    simp [calculate, source, calculateAlone]
  · dsimp only at h1 h2
    have h0 : count ≠ 0 := by omega
    simp [calculate, source, h0, h1, h2]
  · dsimp only at h1
    have h0 : count ≠ 0 := by omega
    have h3 : 2 ≤ count := by omega
    have h4 : ¬ count ≤ 4 := by omega
    simp [calculate, source, h0, h3, h4]

/-- Case of `repeatable_partial`: a voltage and a current. -/
example : calculate (powder 2) ⟨2, some 3, some 10, none⟩ = .ok (corrected (powder 2) 3) ⟨2, some 3, some 10, some 3⟩ := by
  decide +kernel

end Verif.Magnetizing.Bias
