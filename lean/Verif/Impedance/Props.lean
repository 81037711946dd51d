import Mathlib.Tactic.LinearCombination
import Mathlib.Tactic.FieldSimp
import Verif.Impedance.Model

/-!
# Properties of the impedance: circuit, losses, resonance, inductance (C165, C166)
-/

set_option linter.unusedSimpArgs false
set_option linter.unusedVariables false

namespace Verif.Impedance

open Complex

/-! ## Specification -/

/-- With one ampere through the terminals, `v` is the voltage of an arm beside a capacitor: the currents of both add up to it. Without
capacitor, all of it is that of the arm. -/
def Across (arm : ℂ) (ω c : ℝ) (v : ℂ) : Prop :=
  if 0 < c then ∃ i j : ℂ, i + j = 1 ∧ arm * i = v ∧ I * ω * c * v = j else v = arm

/-- The arm of the inductance of a core, of permeability `mu1 - j mu2`: jωLμ. -/
noncomputable def coreArm (ω l : ℝ) (mu : ℂ) : ℂ := I * ω * l * mu

/-! ## The circuit -/

theorem parallel_eq {arm v : ℂ} {ω c : ℝ} (h : parallel arm ω c = some v) :
    arm ≠ 0 ∧ ω * c ≠ 0 ∧ 1 + I * ω * c * arm ≠ 0 ∧ v = arm / (1 + I * ω * c * arm) := by
  unfold parallel at h
  by_cases h1 : arm = 0 ∨ ω * c = 0
  · rw [if_pos h1] at h; simp at h
  rw [if_neg h1] at h
  push Not at h1
  obtain ⟨ha, hc⟩ := h1
  have hcap : (1 : ℂ) / (⟨0, -1 / (ω * c)⟩ : ℂ) = I * ω * c := by
    have : (⟨0, -1 / (ω * c)⟩ : ℂ) = -I / (ω * c) := by
      apply Complex.ext
      · rw [← ofReal_mul, div_ofReal_re]; simp
      · rw [← ofReal_mul, div_ofReal_im]; simp
    rw [this]
    have hcc : (ω : ℂ) * c ≠ 0 := by exact_mod_cast hc
    field_simp
    rw [I_sq]; ring
  rw [hcap] at h
  have hsum : 1 / arm + I * ω * c = (1 + I * ω * c * arm) / arm := by field_simp
  by_cases h2 : 1 / arm + I * ω * c = 0
  · rw [if_pos h2] at h; simp at h
  rw [if_neg h2] at h
  simp only [Option.some.injEq] at h
  have hne : 1 + I * ω * c * arm ≠ 0 := by
    intro h3
    apply h2
    rw [hsum, h3, zero_div]
  refine ⟨ha, hc, hne, ?_⟩
  rw [← h, hsum]
  field_simp

/-- **C165**: a tank is an arm beside a capacitor: the voltage reported for one ampere obeys Kirchhoff's laws, and no other one does. -/
theorem tank_circuit {arm v : ℂ} {ω c : ℝ} (h : tankAt arm ω c = some v) : Across arm ω c v ∧ ∀ w, Across arm ω c w → w = v := by
  unfold tankAt at h
  unfold Across
  by_cases hc : 0 < c
  · rw [if_pos hc] at h
    obtain ⟨ha, _, hne, rfl⟩ := parallel_eq h
    constructor
    · rw [if_pos hc]
      refine ⟨1 / (1 + I * ω * c * arm), I * ω * c * (arm / (1 + I * ω * c * arm)), ?_, ?_, rfl⟩
      · field_simp
      · field_simp
    · intro w hw
      rw [if_pos hc] at hw
      obtain ⟨i, j, h1, h2, h3⟩ := hw
      rw [eq_div_iff hne]
      have : i = 1 - I * ω * c * w := by rw [h3]; linear_combination h1
      rw [this] at h2
      linear_combination -h2
  · rw [if_neg hc] at h
    simp only [Option.some.injEq] at h
    constructor
    · rw [if_neg hc]; exact h.symm
    · intro w hw
      rw [if_neg hc] at hw
      rw [hw]; exact h

/-- **C165**: a tank has an impedance whenever its arm is not a short circuit and does not resonate exactly. -/
theorem tank_defined {arm : ℂ} {ω c : ℝ} (hω : ω ≠ 0) (ha : arm ≠ 0) (hr : 1 + I * ω * c * arm ≠ 0) : ∃ v, tankAt arm ω c = some v := by
  unfold tankAt
  by_cases hc : 0 < c
  · rw [if_pos hc]
    unfold parallel
    have hcω : ω * c ≠ 0 := mul_ne_zero hω hc.ne'
    rw [if_neg (by push Not; exact ⟨ha, hcω⟩)]
    have hcap : (1 : ℂ) / (⟨0, -1 / (ω * c)⟩ : ℂ) = I * ω * c := by
      have : (⟨0, -1 / (ω * c)⟩ : ℂ) = -I / (ω * c) := by
        apply Complex.ext
        · rw [← ofReal_mul, div_ofReal_re]; simp
        · rw [← ofReal_mul, div_ofReal_im]; simp
      rw [this]
      have hcc : (ω : ℂ) * c ≠ 0 := by exact_mod_cast hcω
      field_simp
      rw [I_sq]; ring
    rw [hcap]
    have hsum : 1 / arm + I * ω * c = (1 + I * ω * c * arm) / arm := by field_simp
    rw [hsum, if_neg (div_ne_zero hr ha)]
    exact ⟨_, rfl⟩
  · rw [if_neg hc]; exact ⟨_, rfl⟩

/-- What an arm has to be: of a core, jωL times its permeability; of a leakage, the resistances of both windings, that of the second
referred to the first one, and jωL. -/
def ArmOf (m : Wideband) (f : ℝ) (t : Tank) (arm : ℂ) : Prop :=
  (t.core = true ∧ ∃ mu : ℂ, arm = I * (2 * Real.pi * f) * t.inductance * mu ∧
    ((m.permeability = none ∧ mu = 1) ∨
      ∃ g, m.permeability = some g ∧ mu = ((g f).1 - I * (g f).2) * m.attenuation f * m.scaling)) ∨
  (t.core = false ∧ ∃ r0 r : ℝ, resistanceAt m f 0 = some r0 ∧ resistanceAt m f t.secondary = some r ∧
    arm = (r0 + t.ratioSquared * r : ℝ) + I * (2 * Real.pi * f * t.inductance : ℝ))

theorem armAt_spec {m : Wideband} {f : ℝ} {t : Tank} {arm : ℂ} (h : armAt m f t = some arm) : ArmOf m f t arm := by
  unfold armAt at h
  cases hc : t.core with
  | true =>
    rw [hc] at h
    simp only [if_true, Option.some.injEq] at h
    left
    refine ⟨hc, effectivePermeability m f, ?_, ?_⟩
    · rw [← h]
      apply Complex.ext <;> simp <;> ring
    · unfold effectivePermeability
      cases hp : m.permeability with
      | none => left; exact ⟨rfl, rfl⟩
      | some g =>
        right
        refine ⟨g, rfl, ?_⟩
        have : (⟨(g f).1, -(g f).2⟩ : ℂ) = (g f).1 - I * (g f).2 := by apply Complex.ext <;> simp
        simp only [this]
  | false =>
    rw [hc] at h
    right
    cases h0 : resistanceAt m f 0 with
    | none => rw [h0] at h; simp at h
    | some r0 =>
      cases h1 : resistanceAt m f t.secondary with
      | none => rw [h0, h1] at h; simp at h
      | some r =>
        rw [h0, h1] at h
        simp only [Bool.false_eq_true, if_false, Option.some.injEq] at h
        refine ⟨hc, r0, r, rfl, rfl, ?_⟩
        rw [← h]
        apply Complex.ext <;> simp

theorem addTanks_spec (m : Wideband) (f : ℝ) : ∀ (ts : List Tank) (z0 z : ℂ), addTanks m f ts z0 = some z →
    ∃ vs : List ℂ, List.Forall₂ (fun t v => ∃ arm, armAt m f t = some arm ∧ tankAt arm (2 * Real.pi * f) t.capacitance = some v) ts vs ∧
      z = z0 + vs.sum := by
  intro ts
  induction ts with
  | nil => intro z0 z h; simp [addTanks] at h; exact ⟨[], .nil, by simp [h]⟩
  | cons t ts ih =>
    intro z0 z h
    unfold addTanks at h
    cases ha : armAt m f t with
    | none => rw [ha] at h; simp at h
    | some arm =>
      rw [ha] at h
      simp only at h
      cases hv : tankAt arm (2 * Real.pi * f) t.capacitance with
      | none => rw [hv] at h; simp at h
      | some v =>
        rw [hv] at h
        simp only at h
        obtain ⟨vs, h1, h2⟩ := ih _ _ h
        exact ⟨v :: vs, .cons ⟨arm, ha, hv⟩ h1, by rw [h2]; simp [add_assoc]⟩

/-- **C165**: the impedance of a magnetic is the voltage of one ampere through all of its tanks in series, each with its arm and its
capacitor. -/
theorem impedance_circuit {m : Wideband} {f : ℝ} {z : ℂ} (h : impedance m f = some z) :
    ∃ vs : List ℂ, List.Forall₂ (fun t v => ∃ arm, ArmOf m f t arm ∧ Across arm (2 * Real.pi * f) t.capacitance v) m.tanks vs ∧
      z = vs.sum := by
  obtain ⟨vs, h1, h2⟩ := addTanks_spec m f m.tanks 0 z h
  refine ⟨vs, ?_, by simpa using h2⟩
  refine List.Forall₂.imp ?_ h1
  rintro t v ⟨arm, ha, hv⟩
  exact ⟨arm, armAt_spec ha, (tank_circuit hv).1⟩

/-- A magnetic of two windings: one tank of the core and one of leakage. -/
noncomputable def twoWindings : Wideband where
  permeability := some fun _ => (100, 20)
  attenuation := fun _ => 1
  scaling := 1 / 2
  tanks := [⟨3, 0, true, 0, 0⟩, ⟨5, 0, false, 1, 4⟩]
  dc := [1, 2]
  perMetre := []
  perMetreAt := fun _ _ => 0
  skin := false
  proximity := false
  field := fun _ _ => 0
  fast := true

example : impedance twoWindings (1 / (2 * Real.pi)) = some ⟨39, 155⟩ := by
  have hp := Real.pi_pos
  have h1 : 2 * Real.pi * (1 / (2 * Real.pi)) = 1 := by field_simp
  unfold impedance
  simp [addTanks, armAt, tankAt, effectivePermeability, resistanceAt, twoWindings]
  apply Complex.ext
  · simp; field_simp; norm_num
  · simp; field_simp; norm_num

/-! ## No tank gives energy -/

theorem tank_passive {arm v : ℂ} {ω c : ℝ} (h : tankAt arm ω c = some v) (ha : 0 ≤ arm.re) : 0 ≤ v.re := by
  unfold tankAt at h
  by_cases hc : 0 < c
  · rw [if_pos hc] at h
    obtain ⟨h0, _, hne, rfl⟩ := parallel_eq h
    have hv : arm / (1 + I * ω * c * arm) = (1 / arm + I * ω * c)⁻¹ := by
      rw [← one_div, show 1 / arm + I * ω * c = (1 + I * ω * c * arm) / arm by field_simp]
      field_simp
    rw [hv, inv_re]
    apply div_nonneg _ (normSq_nonneg _)
    rw [add_re, one_div, inv_re]
    have : (I * (ω : ℂ) * c).re = 0 := by simp
    rw [this, add_zero]
    exact div_nonneg ha (normSq_nonneg _)
  · rw [if_neg hc] at h
    simp only [Option.some.injEq] at h
    rw [← h]; exact ha

/-- **C165**: a material whose permeability has losses, in windings of resistance not negative, never gives energy: the real part of
the impedance is not negative at any frequency. -/
theorem impedance_passive {m : Wideband} {f : ℝ} {z : ℂ} (h : impedance m f = some z) (hf : 0 ≤ f)
    (hl : ∀ t ∈ m.tanks, 0 ≤ t.inductance ∧ 0 ≤ t.ratioSquared) (hmu : (effectivePermeability m f).im ≤ 0)
    (hr : ∀ i r, resistanceAt m f i = some r → 0 ≤ r) : 0 ≤ z.re := by
  obtain ⟨vs, h1, h2⟩ := addTanks_spec m f m.tanks 0 z h
  have hall : ∀ v ∈ vs, 0 ≤ v.re := by
    intro v hv
    obtain ⟨t, ht, arm, ha, hv⟩ : ∃ t ∈ m.tanks, ∃ arm, armAt m f t = some arm ∧ tankAt arm (2 * Real.pi * f) t.capacitance = some v := by
      clear h h2 hl
      revert hv
      generalize m.tanks = ts at h1
      induction h1 with
      | nil => simp
      | cons hab _ ih =>
        intro hv
        rcases List.mem_cons.mp hv with rfl | hv
        · exact ⟨_, by simp, hab⟩
        · obtain ⟨t, ht, hx⟩ := ih hv
          exact ⟨t, by simp [ht], hx⟩
    refine tank_passive hv ?_
    obtain ⟨hL, hn⟩ := hl t ht
    unfold armAt at ha
    cases hc : t.core with
    | true =>
      rw [hc] at ha
      simp only [if_true, Option.some.injEq] at ha
      rw [← ha, re_ofReal_mul]
      have := Real.pi_pos
      apply mul_nonneg (by positivity)
      simpa using hmu
    | false =>
      rw [hc] at ha
      cases h0 : resistanceAt m f 0 with
      | none => rw [h0] at ha; simp at ha
      | some r0 =>
        cases h1 : resistanceAt m f t.secondary with
        | none => rw [h0, h1] at ha; simp at ha
        | some r =>
          rw [h0, h1] at ha
          simp only [Bool.false_eq_true, if_false, Option.some.injEq] at ha
          rw [← ha]
          have e0 := hr _ _ h0
          have e1 := hr _ _ h1
          simp only
          positivity
  rw [h2]
  clear h h1 h2
  simp only [zero_add]
  induction vs with
  | nil => simp
  | cons v vs ih =>
    simp only [List.sum_cons, add_re]
    exact add_nonneg (hall v (by simp)) (ih fun w hw => hall w (by simp [hw]))

/-- A core with losses meets the hypotheses. -/
example : (effectivePermeability twoWindings 5).im ≤ 0 := by
  simp [effectivePermeability, twoWindings]

/-! ## Resonance -/

/-- **C165**: beside a capacitor, an arm is inductive as long as its reactance is above what the capacitor takes, and capacitive
beyond. -/
theorem reactance_sign {arm v : ℂ} {ω c : ℝ} (hc : 0 < c) (h : tankAt arm ω c = some v) :
    (0 < v.im ↔ ω * c * normSq arm < arm.im) ∧ (v.im < 0 ↔ arm.im < ω * c * normSq arm) := by
  unfold tankAt at h
  rw [if_pos hc] at h
  obtain ⟨h0, _, hne, rfl⟩ := parallel_eq h
  have hv : (arm / (1 + I * ω * c * arm)).im = (arm.im - ω * c * normSq arm) / normSq (1 + I * ω * c * arm) := by
    rw [div_im]
    have h1 : (1 + I * (ω : ℂ) * c * arm).re = 1 - ω * c * arm.im := by simp; ring
    have h2 : (1 + I * (ω : ℂ) * c * arm).im = ω * c * arm.re := by simp
    rw [h1, h2, normSq_apply arm]
    ring
  have hn : 0 < normSq (1 + I * ω * c * arm) := normSq_pos.mpr hne
  rw [hv]
  constructor
  · rw [div_pos_iff_of_pos_right hn, sub_pos]
  · rw [div_neg_iff]
    constructor
    · rintro (⟨_, h2⟩ | ⟨h1, _⟩)
      · linarith
      · linarith
    · intro h3
      right
      exact ⟨by linarith, hn⟩

/-- **C165**: the self resonance is where a tank without losses of that inductance and capacitance turns from inductive to capacitive. -/
theorem resonance_turns {l c f t : ℝ} (hl : 0 < l) (hc : 0 < c) (hf : 0 < f) {v : ℂ}
    (h : tankAt (I * (2 * Real.pi * f * l : ℝ)) (2 * Real.pi * f) c = some v) :
    (0 < v.im ↔ f < selfResonance true c c 1 (fun _ => l) t) ∧ (v.im < 0 ↔ selfResonance true c c 1 (fun _ => l) t < f) := by
  obtain ⟨h1, h2⟩ := reactance_sign hc h
  have hp := Real.pi_pos
  have hlc : 0 < l * c := mul_pos hl hc
  have hs : 0 < Real.sqrt (l * c) := Real.sqrt_pos.mpr hlc
  have e1 : (I * (2 * Real.pi * f * l : ℝ) : ℂ).im = 2 * Real.pi * f * l := by simp
  have e2 : normSq (I * (2 * Real.pi * f * l : ℝ) : ℂ) = (2 * Real.pi * f * l) ^ 2 := by
    rw [normSq_mul, normSq_I, normSq_ofReal]; ring
  rw [e1, e2] at h1 h2
  have hsq : Real.sqrt (l * c) ^ 2 = l * c := Real.sq_sqrt hlc.le
  have hfac : 2 * Real.pi * f * c * (2 * Real.pi * f * l) ^ 2 = 2 * Real.pi * f * l * (2 * Real.pi * f * Real.sqrt (l * c)) ^ 2 := by
    rw [mul_pow (2 * Real.pi * f) (Real.sqrt (l * c)), hsq]; ring
  have hpos : 0 < 2 * Real.pi * f * l := by positivity
  have hx : 0 < 2 * Real.pi * f * Real.sqrt (l * c) := by positivity
  have hy : 0 < 2 * Real.pi * Real.sqrt (l * c) := by positivity
  have hres : selfResonance true c c 1 (fun _ => l) t = 1 / (2 * Real.pi * Real.sqrt (l * c)) := by simp [selfResonance]
  rw [hres]
  constructor
  · rw [h1, hfac, lt_div_iff₀ hy]
    constructor
    · intro h3
      have : (2 * Real.pi * f * Real.sqrt (l * c)) ^ 2 < 1 := by
        by_contra hcon
        push Not at hcon
        nlinarith
      have := (sq_lt_one_iff₀ hx.le).mp this
      linarith
    · intro h3
      have : 2 * Real.pi * f * Real.sqrt (l * c) < 1 := by linarith
      have := (sq_lt_one_iff₀ hx.le).mpr this
      nlinarith
  · rw [h2, hfac, div_lt_iff₀ hy]
    constructor
    · intro h3
      have : 1 < (2 * Real.pi * f * Real.sqrt (l * c)) ^ 2 := by
        by_contra hcon
        push Not at hcon
        nlinarith
      have := (one_lt_sq_iff₀ hx.le).mp this
      linarith
    · intro h3
      have : 1 < 2 * Real.pi * f * Real.sqrt (l * c) := by linarith
      have := (one_lt_sq_iff₀ hx.le).mpr this
      nlinarith

/-! ## Tanks of leakage -/

/-- **C165**: there is one tank for each other winding with leakage, in order, with its resistance referred by the ratio of turns
squared. -/
theorem leakage_tanks (n : ℝ) (ss : List Secondary) (i0 : ℕ) :
    leakageTanks n i0 ss = ((ss.zipIdx i0).filter fun p => decide (0 < p.1.leakage)).map fun p =>
      { inductance := p.1.leakage, capacitance := p.1.capacitance, core := false, secondary := p.2
        ratioSquared := if 0 < p.1.turns then (n / p.1.turns) ^ 2 else 1 } := by
  induction ss generalizing i0 with
  | nil => rfl
  | cons s ss ih =>
    unfold leakageTanks
    rw [List.zipIdx_cons, List.filter_cons]
    by_cases h : s.leakage ≤ 0
    · rw [if_pos h, ih, if_neg (by simp [not_lt.mpr h])]
    · rw [if_neg h, ih, if_pos (show decide (0 < (s, i0).1.leakage) = true from decide_eq_true (not_le.mp h))]
      rfl

/-- **C165** (fails): the differential mode of two windings has the resistance of the first one alone, so it is the tank of leakage of
both only when the second one has no resistance. -/
theorem differential_one_winding (m : Wideband) (f l c r0 r1 n : ℝ) (hf : 0 < f) (h0 : resistanceAt m f 0 = some r0)
    (h1 : resistanceAt m f 1 = some r1) {arm : ℂ} (ha : armAt m f ⟨l, c, false, 1, n ^ 2⟩ = some arm) (hn : n ≠ 0) {v w : ℂ}
    (hv : differential l r0 c f = some v) (hw : tankAt arm (2 * Real.pi * f) c = some w) : v = w ↔ r1 = 0 := by
  have hp := Real.pi_pos
  unfold armAt at ha
  rw [h0, h1] at ha
  simp only [Bool.false_eq_true, if_false, Option.some.injEq] at ha
  unfold differential at hv
  have key : v = w ↔ (⟨r0, 2 * Real.pi * f * l⟩ : ℂ) = arm := by
    unfold tankAt at hv hw
    by_cases hc : 0 < c
    · rw [if_pos hc] at hv hw
      obtain ⟨_, _, n1, rfl⟩ := parallel_eq hv
      obtain ⟨_, _, n2, rfl⟩ := parallel_eq hw
      rw [div_eq_div_iff n1 n2]
      constructor
      · intro h; linear_combination h
      · intro h; rw [h]
    · rw [if_neg hc] at hv hw
      simp only [Option.some.injEq] at hv hw
      rw [hv, hw]
  rw [key, ← ha]
  constructor
  · intro h
    have := congrArg Complex.re h
    simp only at this
    have h3 : n ^ 2 * r1 = 0 := by linarith
    rcases mul_eq_zero.mp h3 with h4 | h4
    · exact absurd (pow_eq_zero_iff (by norm_num) |>.mp h4) hn
    · exact h4
  · intro h; rw [h]; simp

/-! ## Quality factor -/

/-- **C165**: the quality factor is reactance over resistance, defined for any resistance but none. -/
theorem q_factor (z : ℂ) : (∀ q, qFactor z = some q → q * z.re = z.im) ∧ (qFactor z = none ↔ z.re = 0) := by
  unfold qFactor
  by_cases h : z.re = 0
  · simp [h]
  · rw [if_neg h]
    refine ⟨?_, by simp [h]⟩
    intro q hq
    simp only [Option.some.injEq] at hq
    rw [← hq]; field_simp

/-! ## Inductance of the first tank (C166) -/

/-- What the inductance of turns around a core is: the turns squared over the reluctance at its permeability. -/
noncomputable def trueInductance (vacuum geometry gaps turns mu : ℝ) : ℝ := turns ^ 2 / (geometry / (vacuum * mu) + gaps)

/-- **C166** (partial: cores without gaps): the inductance of the first tank times the permeability is that of the core. -/
theorem ungapped_inductance_partial (vacuum geometry turns mu c : ℝ) (w : ℕ) (hv : 0 < vacuum) (hg : 0 < geometry) (hmu : 0 < mu) :
    (magnetizingTank vacuum geometry 0 turns c w).inductance * mu = trueInductance vacuum geometry 0 turns mu := by
  unfold magnetizingTank reluctance trueInductance
  simp only [add_zero, mul_one]
  field_simp

/-- **C166** (fails): with gaps, the permeability multiplies the gaps too: the inductance is overstated by this factor. -/
theorem gapped_inductance (vacuum geometry gaps turns mu c : ℝ) (w : ℕ) (hv : 0 < vacuum) (hg : 0 < geometry) (hgap : 0 ≤ gaps)
    (hmu : 0 < mu) :
    (magnetizingTank vacuum geometry gaps turns c w).inductance * mu =
      trueInductance vacuum geometry gaps turns mu * ((geometry / vacuum + mu * gaps) / (geometry / vacuum + gaps)) := by
  unfold magnetizingTank reluctance trueInductance
  have h1 : 0 < geometry / vacuum := div_pos hg hv
  have h2 : geometry / (vacuum * mu) = geometry / vacuum / mu := by rw [div_div]
  rw [h2]
  simp only [mul_one]
  generalize geometry / vacuum = r at *
  have h3 : 0 < r / mu + gaps := by positivity
  have h4 : r / mu + gaps = (r + mu * gaps) / mu := by field_simp
  have h5 : 0 < r + mu * gaps := by positivity
  rw [h4]
  field_simp

/-- **C166** (fails): so the inductance is right only without gaps, or in a core of permeability one. -/
theorem gapped_right_iff (vacuum geometry gaps turns mu c : ℝ) (w : ℕ) (hv : 0 < vacuum) (hg : 0 < geometry) (hgap : 0 ≤ gaps)
    (hmu : 0 < mu) (ht : turns ≠ 0) :
    (magnetizingTank vacuum geometry gaps turns c w).inductance * mu = trueInductance vacuum geometry gaps turns mu ↔ gaps = 0 ∨ mu = 1 := by
  rw [gapped_inductance vacuum geometry gaps turns mu c w hv hg hgap hmu]
  have h1 : 0 < geometry / vacuum := div_pos hg hv
  have h2 : trueInductance vacuum geometry gaps turns mu ≠ 0 := by
    unfold trueInductance
    have : 0 < geometry / (vacuum * mu) := by positivity
    have : 0 < geometry / (vacuum * mu) + gaps := by positivity
    positivity
  rw [mul_eq_left₀ h2, div_eq_one_iff_eq (by positivity)]
  constructor
  · intro h
    have : (mu - 1) * gaps = 0 := by linarith
    rcases mul_eq_zero.mp this with h3 | h3
    · right; linarith
    · left; exact h3
  · rintro (h | h) <;> rw [h] <;> ring

/-- **C166** (fails): a gap of a hundredth of the core, of permeability 2000, gives more than twenty times the inductance. -/
theorem gapped_witness : (magnetizingTank 1 1 (1 / 100) 10 0 1).inductance * 2000 = trueInductance 1 1 (1 / 100) 10 2000 * (2100 / 101) := by
  rw [gapped_inductance 1 1 (1 / 100) 10 2000 0 1 (by norm_num) (by norm_num) (by norm_num) (by norm_num)]
  norm_num

/-- **C166**: every winding adds its self capacitance to that of the tank. -/
theorem tank_capacitance (vacuum geometry gaps turns c : ℝ) (w : ℕ) (hw : 0 < w) :
    (magnetizingTank vacuum geometry gaps turns c w).capacitance = w * c := by
  unfold magnetizingTank
  simp only
  by_cases h : 1 < w
  · rw [if_pos h]; ring
  · rw [if_neg h, show w = 1 by omega]; simp

/-- **C166**: with the whole model of capacitance the self resonance is that of the capacitance of the tank. -/
theorem resonance_of_tank (vacuum geometry gaps turns c o t : ℝ) (w : ℕ) (hw : 0 < w) (inductance : Option ℝ → ℝ) :
    selfResonance false o c w inductance t =
      1 / (2 * Real.pi * Real.sqrt (inductance none * (magnetizingTank vacuum geometry gaps turns c w).capacitance)) := by
  rw [tank_capacitance _ _ _ _ _ _ hw]
  simp [selfResonance, mul_comm]

/-- **C166** (fails): with the fast model, the tank has the capacitance of all the windings and the self resonance that of one: it is
higher by the square root of the number of windings. -/
theorem fast_resonance_high (vacuum geometry gaps turns c o t : ℝ) (w : ℕ) (hw : 0 < w) (inductance : Option ℝ → ℝ)
    (hl : 0 < inductance none) (hc : 0 < o) :
    selfResonance true o c w inductance t =
      Real.sqrt w * (1 / (2 * Real.pi * Real.sqrt (inductance none * (magnetizingTank vacuum geometry gaps turns o w).capacitance))) := by
  rw [tank_capacitance _ _ _ _ _ _ hw]
  have hw' : (0 : ℝ) < w := by exact_mod_cast hw
  have hp := Real.pi_pos
  have : inductance none * (w * o) = w * (inductance none * o) := by ring
  rw [this, Real.sqrt_mul hw'.le]
  have h1 : 0 < Real.sqrt w := Real.sqrt_pos.mpr hw'
  have h2 : 0 < Real.sqrt (inductance none * o) := Real.sqrt_pos.mpr (mul_pos hl hc)
  simp only [selfResonance, if_true]
  field_simp

/-- **C166** (fails): the temperature asked for does not reach the inductance, so it does not change the self resonance even when it
changes the inductance. -/
theorem resonance_without_temperature (fast : Bool) (o c : ℝ) (w : ℕ) (inductance : Option ℝ → ℝ) (t t' : ℝ) :
    selfResonance fast o c w inductance t = selfResonance fast o c w inductance t' := rfl

/-- An inductance that halves with temperature: the self resonance at that temperature is not the one reported. -/
theorem resonance_temperature_witness : ∃ inductance : Option ℝ → ℝ,
    selfResonance false 1 1 1 inductance 100 ≠ 1 / (2 * Real.pi * Real.sqrt (inductance (some 100) * 1)) := by
  refine ⟨fun t => if t = some 100 then 1 / 4 else 1, ?_⟩
  have hp := Real.pi_pos
  have h : Real.sqrt (1 / 4) = 1 / 2 := by
    rw [show (1 / 4 : ℝ) = (1 / 2) ^ 2 by norm_num]
    exact Real.sqrt_sq (by norm_num)
  simp only [selfResonance, Bool.false_eq_true, if_false, Nat.cast_one, mul_one, if_true, h, reduceCtorEq]
  rw [Real.sqrt_one]
  intro hcon
  field_simp at hcon
  norm_num at hcon

end Verif.Impedance
