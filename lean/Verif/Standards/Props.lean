import Verif.Standards.Mono
import Verif.Standards.Sound
import Mathlib.Analysis.Real.Sqrt

/-! # Properties C53 to C59: what the four insulation standards require

The specification is in `Verif.Standards.Spec`: the order `Harsher` on inputs and the conditions `Sound…` on the
tables. The shipped tables meet the conditions (`Shipped.sound`). -/

set_option linter.unusedSectionVars false

namespace Verif.Standards

open Verif.Insulation Verif.Round

variable {K : Type} [Field K] [LinearOrder K] [IsStrictOrderedRing K] [FloorRing K]
variable {P : Phys K} {T : Tables K} {i j : Query K}

/-! ## C53: withstand voltage -/

/-- C53 (IEC 60664). -/
theorem withstand664_mono (hP : P.Lawful) {T : T60664 K} (hT : Sound664 T) (h : Harsher i j) (hj : j.Nonneg) :
    (withstand664 P T i).Le (withstand664 P T j) := by
  unfold withstand664
  apply Out.Le.bind
  intro a b ha hb
  apply Out.Le.ok
  have hab := impulse_le hT h a b ha hb
  have hv := h.vrms
  have hv0 := hj.vrms
  have hk : 0 ≤ 12 / 10 * (11 / 10) * P.sqrt2 := mul_nonneg (by norm_num) hP.sqrt2
  refine max_le_max hab (max_le_max (doubled_le h.cls (by linarith) (by linarith)) (max_le_max ?_ h.vpeak))
  have h1 : 12 / 10 * (11 / 10) * P.sqrt2 * i.vrms ≤ 12 / 10 * (11 / 10) * P.sqrt2 * j.vrms :=
    mul_le_mul_of_nonneg_left hv hk
  have h2 : 0 ≤ 12 / 10 * (11 / 10) * P.sqrt2 * j.vrms := mul_nonneg hk hv0
  cases hi : i.cls.strong with
  | true =>
    rw [Cls.strong_mono h.cls hi]
    simp only [if_true]
    linarith
  | false =>
    cases j.cls.strong with
    | true => simp only [if_true, Bool.false_eq_true, if_false]; linarith
    | false => simp only [Bool.false_eq_true, if_false]; exact h1

/-- C53 (IEC 62368). -/
theorem withstand623_mono {T : T62368 K} (hT : Sound623 T) (h : Harsher i j) :
    (withstand623 T i).Le (withstand623 T j) := by
  have hs := Cls.strong_mono h.cls
  unfold withstand623
  refine Out.Le.max2 (interp_le (hT.t25 _) (bool_cases hT.t25_le hs) h.vpeak)
    (Out.Le.max2 (interp_le (hT.t26 _) (bool_cases hT.t26_le hs) h.vpeak) ?_)
  refine lookupLt_le (hT.t27 _) ?_ h.main
  cases hi : i.cls.strong <;> cases hjs : j.cls.strong
  · intro x v w hv hw; rw [hv] at hw; exact (Option.some.inj hw).le
  · exact hT.t27_le
  · rw [hs hi] at hjs; simp at hjs
  · intro x v w hv hw; rw [hv] at hw; exact (Option.some.inj hw).le

/-- C53 (IEC 61558): as long as the voltage stays within table 14, or the category and the class stay. The rest
is false, see `withstand615_category_lowers`. -/
theorem withstand615_mono_partial {T : T61558 K} (hT : Sound615 T) (h : Harsher i j)
    (hr : j.vrms ≤ 1000 ∨ (i.ovc = j.ovc ∧ i.cls = j.cls)) : (withstand615 T i).Le (withstand615 T j) := by
  unfold withstand615
  refine guardSupply_le h.main ?_
  apply Out.Le.bind
  intro v w hv hw
  have hvw : v ≤ w := by
    rw [Out.ofVal_eq_ok] at hv hw
    rcases hr with hr | ⟨ho, hc⟩
    · obtain ⟨z, hz⟩ := interp_total (hT.t14 i.ovc i.cls).1 (hT.t14 i.ovc i.cls).2 j.vrms
      exact le_trans (interp_mono (hT.t14 _ _).1 (hT.t14 _ _).2 h.vrms hv hz)
        (hT.t14_le _ _ _ _ h.ovc h.cls _ hr z w hz hw)
    · rw [ho, hc] at hv
      exact interp_mono (hT.t14 _ _).1 (hT.t14 _ _).2 h.vrms hv hw
  rw [h.freq]
  split
  · exact Out.Le.ok (max_le_max hvw (by have := h.vrms; linarith))
  · exact Out.Le.ok hvw

theorem formula7_le {c d : Cls} (h : c.le d) {x y : K} (hxy : x ≤ y) (hy : 0 ≤ y) : formula7 c x ≤ formula7 d y := by
  cases c <;> cases d <;> simp_all [Cls.le, Cls.rank, formula7] <;> linarith

/-- C53 (IEC 60335). -/
theorem withstand603_mono {T : T60335 K} (hT : Sound603 T) (h : Harsher i j) (hj : j.Nonneg) :
    (withstand603 T i).Le (withstand603 T j) := by
  intro x y hx hy
  unfold withstand603 at hx hy
  by_cases hjf : j.cls = .functional
  · rw [if_pos (Cls.functional_of_le h.cls hjf)] at hx
    rw [if_pos hjf] at hy
    cases hx; cases hy
    exact le_refl _
  · rw [if_neg hjf, Out.bind_eq_ok] at hy
    obtain ⟨w, hw, hy⟩ := hy
    cases hy
    have hw0 := lookupLe_ge (hT.t7 _).2 (Out.ofOption_eq_ok.mp hw)
    by_cases hif : i.cls = .functional
    · rw [if_pos hif] at hx
      cases hx
      exact le_trans hw0 (le_max_left _ _)
    · rw [if_neg hif, Out.bind_eq_ok] at hx
      obtain ⟨v, hv, hx⟩ := hx
      cases hx
      exact max_le_max (lookup_le (hT.t7 _).1 (hT.t7_le _ _ h.cls hif) (rated603_le h) v w hv hw)
        (formula7_le h.cls h.vpeak hj.vpeak)

theorem toOption_eq_some {o : Out K} {v : K} : o.toOption = some v ↔ o = .ok v := by
  cases o <;> simp [Out.toOption]

/-- C53: the withstand voltage required under any list of standards is not lowered by more demanding inputs. With
IEC 61558 in the list, under the condition of `withstand615_mono_partial`. -/
theorem withstand_never_lowered_partial (hP : P.Lawful) (hT : Sound T) (h : Harsher i j) (hj : j.Nonneg)
    {l : List Standard} (hl : Standard.iec61558 ∈ l → j.vrms ≤ 1000 ∨ (i.ovc = j.ovc ∧ i.cls = j.cls)) {v w : K}
    (hv : coordinate (fun s => (withstandOf P T i s).toOption) (some l) = some v)
    (hw : coordinate (fun s => (withstandOf P T j s).toOption) (some l) = some w) : v ≤ w := by
  refine coordinate_mono_req (fun s hs r r' hr hr' => ?_) hv hw
  rw [toOption_eq_some] at hr hr'
  cases s with
  | iec60335 => exact withstand603_mono hT.t603 h hj r r' hr hr'
  | iec60664 => exact withstand664_mono hP hT.t664 h hj r r' hr hr'
  | iec61558 => exact withstand615_mono_partial hT.t615 h (hl hs) r r' hr hr'
  | iec62368 => exact withstand623_mono hT.t623 h r r' hr hr'

/-- A query to build witnesses from. -/
def sample : Query ℚ :=
  { wiring := none, pd := .pd1, ovc := .i, cls := .basic, cti := .groupI, altitude := 2000, main := 230, vrms := 300,
    vpeak := 400, vrms0 := 230, vpeak0 := 325, freq := 50 }

/-- Constants for the witnesses: the skin depth of copper at 1 and 2 MHz, rounded, as a step function. -/
def steps : Phys ℚ :=
  { sqrt2 := 14142 / 10000
    skin := fun f => if f ≤ 10 ^ 6 then 65 / 10 ^ 6 else if f ≤ 2 * 10 ^ 6 then 46 / 10 ^ 6 else 0 }

theorem steps_lawful : steps.Lawful := by
  refine ⟨by simp only [steps]; norm_num, fun f hf => ?_⟩
  simp only [steps]
  split
  · constructor
    · norm_num
    · rename_i h; nlinarith
  · split
    · constructor
      · norm_num
      · rename_i h; nlinarith
    · simp

/-- The real skin depth is lawful too. -/
noncomputable example : ({ sqrt2 := Real.sqrt 2, skin := fun f => Real.sqrt (1 / (240 * f)) } : Phys ℝ).Lawful := by
  refine ⟨Real.sqrt_nonneg _, fun f hf => ⟨Real.sqrt_nonneg _, ?_⟩⟩
  simp only
  rw [Real.sq_sqrt (by positivity)]
  have : 1 / (240 * f) * f = 1 / 240 := by field_simp
  rw [this]
  norm_num

/-- The hypotheses are met by the shipped tables and two different inputs, and both answer. -/
example : Sound Shipped.all ∧ Harsher sample { sample with vrms := 400, cls := .reinforced, ovc := .iii } ∧
    (withstandOf steps Shipped.all sample .iec60664 = .ok 1500) ∧
    (withstandOf steps Shipped.all { sample with vrms := 400, cls := .reinforced, ovc := .iii } .iec60664
      = .ok 8000) :=
  ⟨Shipped.sound, ⟨rfl, rfl, by decide, by decide, by decide, by decide, le_refl _, le_refl _, by norm_num [sample],
    le_refl _, le_refl _, le_refl _⟩, by decide +kernel, by decide +kernel⟩

/-- C53, disagreement (IEC 61558): beyond 1000 V the columns of table 14 are extrapolated and cross, so that
overvoltage category IV asks for less than category I. -/
theorem withstand615_category_lowers :
    withstand615 Shipped.t615 { sample with vrms := 2000 } = .ok 4125 ∧
    withstand615 Shipped.t615 { sample with vrms := 2000, ovc := .iv } = .ok 3500 := by
  constructor <;> decide +kernel

/-! ## C54: clearance -/

/-- C54 (IEC 60664): at a given frequency and wiring, more demanding inputs never lower the clearance. -/
theorem clearance664_mono (hP : P.Lawful) {T : T60664 K} (hT : Sound664 T) (h : Harsher i j) (hj : j.Nonneg) :
    (clearance664 P T i).Le (clearance664 P T j) := clearance664_le hP hT h hj.vpeak

/-- C54 (IEC 62368). -/
theorem clearance623_mono {T : T62368 K} (hT : Sound623 T) (h : Harsher i j) :
    (clearance623 T i).Le (clearance623 T j) := clearance623_le hT h

/-- The inputs for which the clearance of IEC 61558 does not fall: on the same side of 2000 m, and above 30 kHz
(up to 2000 m) with a peak voltage that table 104 still reaches. -/
def Comparable615 (T : T61558 K) (i j : Query K) : Prop :=
  (i.altitude > altitudeLimit ∧ j.altitude > altitudeLimit) ∨
  (j.altitude ≤ altitudeLimit ∧
    (j.freq ≤ lineFrequency ∨ j.vpeak < 25 ∨ ∃ z, lookupLe (T.t104 j.cls.strong) j.vpeak = some z))

/-- C54 (IEC 61558). The rest is false, see `clearance615_voltage_lowers` and `clearance615_altitude_lowers`. -/
theorem clearance615_mono_partial (hP : P.Lawful) {T6 : T60664 K} {T : T61558 K} (h6 : Sound664 T6)
    (hT : Sound615 T) (h : Harsher i j) (hj : j.Nonneg) (hc : Comparable615 T i j) :
    (clearance615 P T6 T i).Le (clearance615 P T6 T j) := by
  unfold clearance615
  refine guardSupply_le h.main ?_
  by_cases hjf : j.cls = .functional
  · rw [if_pos hjf, if_pos (Cls.functional_of_le h.cls hjf)]
    exact Out.Le.ok (le_refl _)
  · rw [if_neg hjf]
    intro x y hx hy
    rw [Out.bind_eq_ok] at hy
    obtain ⟨d, hd, hy⟩ := hy
    have hd0 := clearance20_nonneg hT hd
    have hy0 : 0 ≤ y := by
      split at hy
      · exact clearance664_nonneg h6 hy
      · split at hy
        · rw [Out.bind_eq_ok] at hy
          obtain ⟨e, -, hy⟩ := hy
          cases hy
          exact ceilFloat_nonneg (le_trans hd0 (le_max_left _ _)) 5
        · cases hy
          exact ceilFloat_nonneg hd0 5
    by_cases hif : i.cls = .functional
    · rw [if_pos hif] at hx
      cases hx
      exact hy0
    · rw [if_neg hif, Out.bind_eq_ok] at hx
      obtain ⟨c, hc', hx⟩ := hx
      have hcd := clearance20_le hT h.ovc (pd615_le h) h.cls h.vrms c d hc' hd
      rcases hc with ⟨hai, haj⟩ | ⟨haj, hc⟩
      · rw [if_pos hai] at hx
        rw [if_pos haj] at hy
        exact clearance664_mono hP h6 h hj x y hx hy
      · rw [if_neg (not_lt.mpr (le_trans h.altitude haj))] at hx
        rw [if_neg (not_lt.mpr haj)] at hy
        rw [h.freq] at hx
        by_cases hf : j.freq > lineFrequency
        · rw [if_pos hf, Out.bind_eq_ok] at hx hy
          obtain ⟨a, ha, hx⟩ := hx
          obtain ⟨b, hb, hy⟩ := hy
          cases hx; cases hy
          rcases hc with hc | hc
          · exact absurd hc (not_le.mpr hf)
          · exact ceilFloat_mono (max_le_max hcd (clearanceHigh_le hT h.cls h.vpeak hc a b ha hb)) 5
        · rw [if_neg hf] at hx hy
          cases hx; cases hy
          exact ceilFloat_mono hcd 5

/-- C54 (IEC 60335): as long as the clearance of IEC 60664 does not stop being consulted. The rest is false, see
`clearance603_primary_lowers`. -/
theorem clearance603_mono_partial (hP : P.Lawful) {T6 : T60664 K} {T : T60335 K} (h6 : Sound664 T6)
    (hT : Sound603 T) (h : Harsher i j) (hj : j.Nonneg) (hu : Uses664 i → Uses664 j) :
    (clearance603 P T6 T i).Le (clearance603 P T6 T j) := clearance603_le hP h6 hT h hj.vpeak hu

/-- C54: the clearance required under any list of standards is not lowered by more demanding inputs, under the
conditions above for IEC 61558 and IEC 60335. -/
theorem clearance_never_lowered_partial (hP : P.Lawful) (hT : Sound T) (h : Harsher i j) (hj : j.Nonneg)
    {l : List Standard} (h5 : Standard.iec61558 ∈ l → Comparable615 T.t615 i j)
    (h3 : Standard.iec60335 ∈ l → Uses664 i → Uses664 j) {v w : K}
    (hv : coordinate (fun s => (clearanceOf P T i s).toOption) (some l) = some v)
    (hw : coordinate (fun s => (clearanceOf P T j s).toOption) (some l) = some w) : v ≤ w := by
  refine coordinate_mono_req (fun s hs r r' hr hr' => ?_) hv hw
  rw [toOption_eq_some] at hr hr'
  cases s with
  | iec60335 => exact clearance603_mono_partial hP hT.t664 hT.t603 h hj (h3 hs) r r' hr hr'
  | iec60664 => exact clearance664_mono hP hT.t664 h hj r r' hr hr'
  | iec61558 => exact clearance615_mono_partial hP hT.t664 hT.t615 h hj (h5 hs) r r' hr hr'
  | iec62368 => exact clearance623_mono hT.t623 h r r' hr hr'

/-- The hypotheses are met by two different inputs that all four standards answer. -/
example : Harsher sample { sample with vpeak := 600, pd := .pd3, cls := .reinforced } ∧
    Comparable615 Shipped.t615 sample { sample with vpeak := 600, pd := .pd3, cls := .reinforced } ∧
    (Uses664 sample → Uses664 { sample with vpeak := 600, pd := .pd3, cls := .reinforced }) ∧
    coordinate (fun s => (clearanceOf steps Shipped.all sample s).toOption)
      (some [.iec60335, .iec60664, .iec61558, .iec62368]) = some (127 / 100000) ∧
    coordinate (fun s => (clearanceOf steps Shipped.all
      { sample with vpeak := 600, pd := .pd3, cls := .reinforced } s).toOption)
      (some [.iec60335, .iec60664, .iec61558, .iec62368]) = some (254 / 100000) :=
  ⟨⟨rfl, rfl, by decide, by decide, by decide, by decide, le_refl _, le_refl _, le_refl _, by norm_num [sample],
    le_refl _, le_refl _⟩, Or.inr ⟨by norm_num [sample, altitudeLimit], Or.inl (by norm_num [sample, lineFrequency])⟩,
    fun h => h, by decide +kernel, by decide +kernel⟩

/-- C54, disagreement (IEC 61558): above 30 kHz the clearance drops from 11 mm to 1.8 mm when the peak voltage
rises from 2000 V to 2200 V, because table 104 ends at 2000 V and is then left out. -/
theorem clearance615_voltage_lowers :
    clearance615 steps Shipped.t664 Shipped.t615 { sample with vrms := 1000, vpeak := 2000, freq := 100000 }
      = .ok (11 / 1000) ∧
    clearance615 steps Shipped.t664 Shipped.t615 { sample with vrms := 1000, vpeak := 2200, freq := 100000 }
      = .ok (18 / 10000) := by
  constructor <;> decide +kernel

/-- C54, disagreement (IEC 61558): above 2000 m the answer is the clearance of IEC 60664, which may be smaller
than what the standard itself asks for at 2000 m. -/
theorem clearance615_altitude_lowers :
    clearance615 steps Shipped.t664 Shipped.t615
      { sample with vrms := 1000, vpeak := 1000, pd := .pd2, ovc := .iii, cls := .reinforced } = .ok (14 / 1000) ∧
    ∃ v, clearance615 steps Shipped.t664 Shipped.t615
      { sample with vrms := 1000, vpeak := 1000, pd := .pd2, ovc := .iii, cls := .reinforced, altitude := 2001 }
      = .ok v ∧ v < 12 / 1000 := by
  refine ⟨by decide +kernel, 550077 / 50000000, by decide +kernel, by norm_num⟩

/-- C54, disagreement (IEC 60335): raising the voltage of the primary may lower the clearance, because IEC 60664
is only consulted while some winding exceeds the primary. -/
theorem clearance603_primary_lowers :
    clearance603 steps Shipped.t664 Shipped.t603
      { sample with ovc := .ii, vrms := 300, vpeak := 3000, vrms0 := 50 } = .ok (24 / 10000) ∧
    clearance603 steps Shipped.t664 Shipped.t603
      { sample with ovc := .ii, vrms := 300, vpeak := 3000, vrms0 := 300 } = .ok (15 / 10000) := by
  constructor <;> decide +kernel

/-! ## C55: creepage distance -/

/-- C55 (IEC 60664): without the clearance. -/
theorem creepage664_mono {T : T60664 K} (hT : Sound664 T) (h : Harsher i j) :
    (creepage664 P T i false).Le (creepage664 P T j false) := creepage664_le_false hT h

/-- C55 (IEC 62368): with or without the clearance. -/
theorem creepage623_mono {T : T62368 K} (hT : Sound623 T) (h : Harsher i j) (inc : Bool) :
    (creepage623 T i inc).Le (creepage623 T j inc) := by
  unfold creepage623
  rw [h.wiring]
  have hr := creepageRaw623_le hT h.pd h.cti h.cls h.vrms h.freq.le
  split
  · exact distanceG13_le hT h
  · split
    · exact Out.Le.max2 hr (clearance623_mono hT h)
    · exact hr

/-- C55 (IEC 61558): without the clearance, or with it under the conditions on the clearance. -/
theorem creepage615_mono_partial (hP : P.Lawful) {T6 : T60664 K} {T : T61558 K} (h6 : Sound664 T6)
    (hT : Sound615 T) (h : Harsher i j) (hj : j.Nonneg) (inc : Bool) (hc : inc = true → Comparable615 T i j) :
    (creepage615 P T6 T i inc).Le (creepage615 P T6 T j inc) := by
  unfold creepage615
  refine guardSupply_le h.main ?_
  have hr := creepageRaw615_le hT h
  by_cases hjf : j.cls = .functional
  · rw [if_pos hjf, if_pos (Cls.functional_of_le h.cls hjf)]
    exact Out.Le.ok (le_refl _)
  · rw [if_neg hjf]
    by_cases hif : i.cls = .functional
    · rw [if_pos hif]
      intro x y hx hy
      cases hx
      rw [Out.bind_eq_ok] at hy
      obtain ⟨c, hc', hy⟩ := hy
      cases hy
      apply ceilFloat_nonneg
      split at hc'
      · rw [Out.max2_eq_ok] at hc'
        obtain ⟨a, b, ha, -, rfl⟩ := hc'
        exact le_trans (creepageRaw615_nonneg hT ha) (le_max_left _ _)
      · exact creepageRaw615_nonneg hT hc'
    · rw [if_neg hif]
      refine Out.Le.map ?_ (fun v w hvw => ceilFloat_mono hvw 5)
      cases inc with
      | true =>
        simp only [if_true]
        exact Out.Le.max2 hr (clearance615_mono_partial hP h6 hT h hj (hc rfl))
      | false => simpa using hr

/-- C55 (IEC 60335): without the clearance, or with it under the condition on the clearance. -/
theorem creepage603_mono_partial (hP : P.Lawful) {T6 : T60664 K} {T : T60335 K} (h6 : Sound664 T6)
    (hT : Sound603 T) (h : Harsher i j) (hj : j.Nonneg) (inc : Bool) (hu : inc = true → Uses664 i → Uses664 j) :
    (creepage603 P T6 T i inc).Le (creepage603 P T6 T j inc) := by
  unfold creepage603
  refine Out.Le.map ?_ (fun v w hvw => roundFloat_mono hvw 5)
  have hr := creepageRaw603_le (P := P) h6 hT h
  cases inc with
  | true =>
    simp only [if_true]
    exact Out.Le.max2 hr (clearance603_mono_partial hP h6 hT h hj (hu rfl))
  | false => simpa using hr

/-- Whether IEC 60664 lets the creepage distance stay below the clearance for these inputs. -/
def Skips (T : T60664 K) (q : Query K) : Prop :=
  ∃ c, creepageRaw664 T q = .ok c ∧ maySkipClearance T q c = some true

/-- C55 (IEC 60664) with the clearance: as long as the more demanding inputs do not make the code leave the
clearance out. The rest is false, see `creepage664_voltage_lowers`. -/
theorem creepage664_mono_partial (hP : P.Lawful) {T : T60664 K} (hT : Sound664 T) (h : Harsher i j) (hj : j.Nonneg)
    (hs : Skips T j → Skips T i) : (creepage664 P T i true).Le (creepage664 P T j true) := by
  intro x y hx hy
  obtain ⟨c, s, hc, hsi, hx⟩ := creepage664_eq_ok hx
  obtain ⟨d, t, hd, htj, hy⟩ := creepage664_eq_ok hy
  have hcd := creepageRaw664_le hT h c d hc hd
  simp only [Bool.true_eq_false, or_false, true_and] at hx hy
  rcases hy with ⟨rfl, rfl⟩ | ⟨rfl, b, hb, rfl⟩
  · obtain ⟨c', hc', hs'⟩ := hs ⟨d, hd, htj⟩
    rw [hc] at hc'
    cases hc'
    rw [hsi] at hs'
    cases hs'
    simp only [true_and, Bool.true_eq_false, false_and, or_false] at hx
    rw [hx]
    exact roundFloat_mono hcd 5
  · rcases hx with ⟨-, rfl⟩ | ⟨-, a, ha, rfl⟩
    · exact roundFloat_mono (le_trans hcd (le_max_left _ _)) 5
    · exact roundFloat_mono (max_le_max hcd (clearance664_mono hP hT h hj a b ha hb)) 5

/-- C55: the creepage distance required under any list of standards is not lowered by more demanding inputs.
Without the clearance this holds for all inputs; with it, under the conditions above. -/
theorem creepage_never_lowered_partial (hP : P.Lawful) (hT : Sound T) (h : Harsher i j) (hj : j.Nonneg)
    (inc : Bool) {l : List Standard}
    (h5 : inc = true → Standard.iec61558 ∈ l → Comparable615 T.t615 i j)
    (h3 : inc = true → Standard.iec60335 ∈ l → Uses664 i → Uses664 j)
    (h6 : inc = true → Standard.iec60664 ∈ l → Skips T.t664 j → Skips T.t664 i) {v w : K}
    (hv : coordinate (fun s => (creepageOf P T i inc s).toOption) (some l) = some v)
    (hw : coordinate (fun s => (creepageOf P T j inc s).toOption) (some l) = some w) : v ≤ w := by
  refine coordinate_mono_req (fun s hs r r' hr hr' => ?_) hv hw
  rw [toOption_eq_some] at hr hr'
  cases s with
  | iec60335 => exact creepage603_mono_partial hP hT.t664 hT.t603 h hj inc (fun e => h3 e hs) r r' hr hr'
  | iec60664 =>
    cases inc with
    | true => exact creepage664_mono_partial hP hT.t664 h hj (h6 rfl hs) r r' hr hr'
    | false => exact creepage664_mono hT.t664 h r r' hr hr'
  | iec61558 => exact creepage615_mono_partial hP hT.t664 hT.t615 h hj inc (fun e => h5 e hs) r r' hr hr'
  | iec62368 => exact creepage623_mono hT.t623 h inc r r' hr hr'

/-- C55, disagreement (IEC 60664): with the clearance included, raising the voltage from 1200 V to 1320 V lowers
the required creepage distance from 33.22 mm to 11.2 mm. -/
theorem creepage664_voltage_lowers :
    creepage664 steps Shipped.t664
      { sample with cls := .double, cti := .groupII, altitude := 10000, main := 240, vrms := 1200, vpeak := 1680 } true
      = .ok (3322 / 100000) ∧
    creepage664 steps Shipped.t664
      { sample with cls := .double, cti := .groupII, altitude := 10000, main := 240, vrms := 1320, vpeak := 1848 } true
      = .ok (112 / 10000) := by
  constructor <;> decide +kernel

/-- C55, disagreement (IEC 60664): so does asking for reinforced instead of functional insulation. -/
theorem creepage664_class_lowers :
    creepage664 steps Shipped.t664
      { sample with pd := .pd2, ovc := .iv, cti := .groupIIIA, altitude := 10000, main := 48, vrms := 800,
                    vpeak := 1600, freq := 50000, cls := .functional } true = .ok (4228 / 100000) ∧
    creepage664 steps Shipped.t664
      { sample with pd := .pd2, ovc := .iv, cti := .groupIIIA, altitude := 10000, main := 48, vrms := 800,
                    vpeak := 1600, freq := 50000, cls := .reinforced } true = .ok (20 / 1000) := by
  constructor <;> decide +kernel

/-! ## C56: distance through insulation -/

/-- C56: the distance through insulation required by any of the four standards is not lowered by more demanding
inputs. -/
theorem dti_mono (hT : Sound T) (h : Harsher i j) (s : Standard) {v w : K} (hv : DtiOf T i s (some v))
    (hw : DtiOf T j s (some w)) : v ≤ w := by
  cases s with
  | iec62368 =>
    simp only [DtiOf, Option.some.injEq] at hv hw
    subst hv; subst hw
    have h4 : (0 : K) ≤ 4 / 10000 := by norm_num
    have hnn : ∀ q : Query K, 0 ≤ dti623 q := by
      intro q
      unfold dti623
      split
      · exact le_refl _
      · split
        · exact le_refl _
        · exact h4
    unfold dti623
    rw [h.freq]
    by_cases h1 : i.vrms ≤ es2Limit j.freq
    · rw [if_pos h1]
      exact hnn j
    · rw [if_neg h1, if_neg (fun h2 => h1 (le_trans h.vrms h2))]
      by_cases h2 : j.cls = .functional ∨ j.cls = .basic
      · rw [if_pos h2, if_pos (Cls.basic_of_le h.cls h2)]
      · rw [if_neg h2]
        split
        · exact h4
        · exact le_refl _
  | iec60335 =>
    simp only [DtiOf, reduceCtorEq, and_false, Option.some.injEq, false_or] at hv hw
    obtain ⟨v', hv, rfl⟩ := hv
    obtain ⟨w', hw, rfl⟩ := hw
    unfold dti603 at hv hw
    by_cases hjo : j.ovc = .iv
    · rw [if_pos hjo] at hw; simp at hw
    have hio := ovc_ne_iv h.ovc hjo
    rw [if_neg hjo] at hw
    rw [if_neg hio] at hv
    have hc := h.cls
    by_cases hjr : j.cls = .reinforced
    · rw [if_pos hjr, Out.bind_eq_ok] at hw
      obtain ⟨d, hd, hw⟩ := hw
      cases hw
      have h2 : (2 / 1000 : K) ≤ max (2 / 1000) d := le_max_left _ _
      by_cases hir : i.cls = .reinforced
      · rw [if_pos hir, Out.bind_eq_ok] at hv
        obtain ⟨c, hc', hv⟩ := hv
        cases hv
        exact max_le_max (le_refl _)
          (lookup_le (hT.t603.t19 _) (hT.t603.t19_le _ _ h.ovc hjo) (rated603_le h) c d hc' hd)
      · rw [if_neg hir] at hv
        split at hv
        · cases hv
          exact le_trans (by norm_num) h2
        · cases hv
          exact le_trans (by norm_num) h2
    · have hir : i.cls ≠ .reinforced := by
        intro e
        rw [e] at hc
        cases hj' : j.cls <;> simp_all [Cls.le, Cls.rank]
      rw [if_neg hjr] at hw
      rw [if_neg hir] at hv
      by_cases hjd : j.cls = .supplementary ∨ j.cls = .double
      · rw [if_pos hjd] at hw
        cases hw
        split at hv
        · cases hv; exact le_refl _
        · cases hv; norm_num
      · rw [if_neg hjd] at hw
        cases hw
        have : ¬ (i.cls = .supplementary ∨ i.cls = .double) := by
          rintro (e | e) <;> rw [e] at hc <;> cases hj' : j.cls <;> simp_all [Cls.le, Cls.rank]
        rw [if_neg this] at hv
        cases hv
        exact le_refl _
  | iec60664 =>
    simp only [DtiOf, Option.some.injEq] at hv hw
    obtain ⟨v', hv, rfl⟩ := hv
    obtain ⟨w', hw, rfl⟩ := hw
    unfold Dti664 at hv hw
    rw [h.freq] at hv
    by_cases hf : j.freq > lineFrequency
    · rw [if_pos hf] at hv hw
      obtain ⟨a, ha, rfl⟩ := hv
      obtain ⟨b, hb, rfl⟩ := hw
      exact ceilFloat_mono (max_le_max (le_refl _) (search_mono h.vrms ha hb)) 5
    · rw [if_neg hf] at hv hw
      rw [hv, hw]
  | iec61558 =>
    simp only [DtiOf] at hv hw
    unfold Dti615 at hv hw
    by_cases hm : j.main > 1100
    · rw [if_pos hm] at hw; simp at hw
    rw [if_neg hm] at hw
    rw [if_neg (fun hi => hm (lt_of_lt_of_le hi h.main))] at hv
    by_cases hjf : j.cls = .functional
    · rw [if_pos hjf] at hw
      rw [if_pos (Cls.functional_of_le h.cls hjf)] at hv
      cases hv; cases hw
      exact le_refl _
    rw [if_neg hjf] at hw
    obtain ⟨d, hd, hw⟩ := hw
    have hd0 : 0 ≤ d := by
      unfold dti22 at hd
      split at hd
      · cases hd; exact le_refl _
      · rename_i hn
        push Not at hn
        rw [Out.ofVal_eq_ok] at hd
        exact interp_ge_of_rows (hT.t615.t22 _ hn.2.1 hn.2.2).1 (hT.t615.t22 _ hn.2.1 hn.2.2).2 hd
    have hw0 : 0 ≤ w := by
      split at hw
      · obtain ⟨s, -, hw⟩ := hw
        cases hw
        exact ceilFloat_nonneg (le_trans hd0 (le_max_left _ _)) 5
      · cases hw
        exact ceilFloat_nonneg hd0 5
    by_cases hif : i.cls = .functional
    · rw [if_pos hif] at hv
      cases hv
      exact hw0
    rw [if_neg hif] at hv
    obtain ⟨c, hc, hv⟩ := hv
    have hcd : c ≤ d := by
      unfold dti22 at hc
      by_cases h1 : i.vrms < 25 ∨ i.cls = .functional ∨ i.cls = .basic
      · rw [if_pos h1] at hc
        cases hc
        exact hd0
      · rw [if_neg h1] at hc
        push Not at h1
        unfold dti22 at hd
        have h2 : ¬ (j.vrms < 25 ∨ j.cls = .functional ∨ j.cls = .basic) := by
          rintro (e | e)
          · exact absurd (lt_of_le_of_lt h.vrms e) (not_lt.mpr h1.1)
          · exact (Cls.basic_of_le h.cls e).elim h1.2.1 h1.2.2
        rw [if_neg h2] at hd
        exact interp_le (hT.t615.t22 _ h1.2.1 h1.2.2).1 (hT.t615.t22_le _ _ h.cls h1.2.1 h1.2.2) h.vrms c d hc hd
    rw [h.freq] at hv
    by_cases hf : j.freq > lineFrequency
    · rw [if_pos hf] at hv hw
      obtain ⟨a, ha, hv⟩ := hv
      obtain ⟨b, hb, hw⟩ := hw
      cases hv; cases hw
      exact ceilFloat_mono (max_le_max hcd (search_mono h.vrms ha hb)) 5
    · rw [if_neg hf] at hv hw
      cases hv; cases hw
      exact ceilFloat_mono hcd 5

/-- C56: IEC 62368 asks for 0.4 mm through insulation stronger than basic once the working voltage exceeds 120 V at zero
frequency, 50 V up to 1 kHz, 50 V plus 0.9 V per kHz up to 100 kHz and 140 V above, and for nothing otherwise. -/
theorem dti623_required (q : Query K) :
    (dti623 q = 0 ∨ dti623 q = 4 / 10000) ∧
    (dti623 q = 4 / 10000 ↔ (q.cls = .supplementary ∨ q.cls = .double ∨ q.cls = .reinforced) ∧
      (q.freq < 1 ∧ 120 < q.vrms ∨ 1 ≤ q.freq ∧ q.freq < 1000 ∧ 50 < q.vrms ∨
        1000 ≤ q.freq ∧ q.freq < 100000 ∧ 50 + 9 * q.freq / 10000 < q.vrms ∨ 100000 ≤ q.freq ∧ 140 < q.vrms)) := by
  have h0 : (0 : K) ≠ 4 / 10000 := by norm_num
  have hlim : es2Limit q.freq < q.vrms ↔ (q.freq < 1 ∧ 120 < q.vrms ∨ 1 ≤ q.freq ∧ q.freq < 1000 ∧ 50 < q.vrms ∨
        1000 ≤ q.freq ∧ q.freq < 100000 ∧ 50 + 9 * q.freq / 10000 < q.vrms ∨ 100000 ≤ q.freq ∧ 140 < q.vrms) := by
    unfold es2Limit
    by_cases a : q.freq < 1
    · rw [if_pos a]
      constructor
      · intro h; exact Or.inl ⟨a, h⟩
      · rintro (h | h | h | h)
        · exact h.2
        · linarith [h.1]
        · linarith [h.1]
        · linarith [h.1]
    · rw [if_neg a]
      by_cases b : q.freq < 1000
      · rw [if_pos b]
        constructor
        · intro h; exact Or.inr (Or.inl ⟨not_lt.mp a, b, h⟩)
        · rintro (h | h | h | h)
          · exact absurd h.1 a
          · exact h.2.2
          · linarith [h.1]
          · linarith [h.1]
      · rw [if_neg b]
        by_cases d : q.freq < 100000
        · rw [if_pos d]
          have e : (50 : K) + 9 / 10 * (q.freq / 1000) = 50 + 9 * q.freq / 10000 := by ring
          rw [e]
          constructor
          · intro h; exact Or.inr (Or.inr (Or.inl ⟨not_lt.mp b, d, h⟩))
          · rintro (h | h | h | h)
            · exact absurd h.1 a
            · exact absurd h.2.1 b
            · exact h.2.2
            · linarith [h.1]
        · rw [if_neg d]
          constructor
          · intro h; exact Or.inr (Or.inr (Or.inr ⟨not_lt.mp d, h⟩))
          · rintro (h | h | h | h)
            · exact absurd h.1 a
            · exact absurd h.2.1 b
            · exact absurd h.2.1 d
            · exact h.2
  rw [← hlim]
  unfold dti623
  by_cases h1 : q.vrms ≤ es2Limit q.freq
  · rw [if_pos h1]
    exact ⟨Or.inl rfl, fun h => absurd h h0, fun h => absurd h.2 (not_lt.mpr h1)⟩
  · rw [if_neg h1]
    have h1' := not_le.mp h1
    cases hc : q.cls <;> simp [h1', h0, h0.symm]

example : dti623 ({ sample with vrms := 51, freq := 50, cls := .reinforced } : Query ℚ) = 4 / 10000 ∧
    dti623 ({ sample with vrms := 119, freq := 0, cls := .reinforced } : Query ℚ) = 0 := by
  constructor <;> decide +kernel

/-- C56: the same for any list of standards. -/
theorem dti_never_lowered (hT : Sound T) (h : Harsher i j) {req req' : Standard → Option K}
    (hr : ∀ s, DtiOf T i s (req s)) (hr' : ∀ s, DtiOf T j s (req' s)) {l : List Standard} {v w : K}
    (hv : coordinate req (some l) = some v) (hw : coordinate req' (some l) = some w) : v ≤ w := by
  refine coordinate_mono_req (fun s _ r r' e e' => ?_) hv hw
  have h1 := hr s
  have h2 := hr' s
  rw [e] at h1
  rw [e'] at h2
  exact dti_mono hT h s h1 h2

/-- Every standard has an answer, so the hypotheses of `dti_never_lowered` can be met. -/
theorem dti_answers [Archimedean K] (hT : Sound T) (q : Query K) : ∃ req : Standard → Option K, ∀ s, DtiOf T q s (req s) := by
  have : ∀ s, ∃ r, DtiOf T q s r := by
    intro s
    cases s with
    | iec62368 => exact ⟨_, rfl⟩
    | iec60335 =>
      simp only [DtiOf]
      cases h : dti603 T.t603 q with
      | ok d => exact ⟨_, Or.inr ⟨d, rfl, rfl⟩⟩
      | threw => exact ⟨_, Or.inl ⟨rfl, rfl⟩⟩
      | odd =>
        exfalso
        unfold dti603 at h
        split at h
        · simp at h
        · split at h
          · rw [Out.bind_eq_odd] at h
            rcases h with h | ⟨v, -, h⟩
            · exact Out.ofOption_ne_odd _ h
            · simp at h
          · split at h <;> simp at h
    | iec60664 =>
      simp only [DtiOf, Dti664]
      obtain ⟨s, hs⟩ := search_total q.vrms
      by_cases hf : q.freq > lineFrequency
      · exact ⟨_, _, by rw [if_pos hf]; exact ⟨s, hs, rfl⟩, rfl⟩
      · exact ⟨_, _, by rw [if_neg hf], rfl⟩
    | iec61558 =>
      simp only [DtiOf, Dti615]
      obtain ⟨s, hs⟩ := search_total q.vrms
      by_cases h1 : q.main > 1100
      · exact ⟨none, by rw [if_pos h1]⟩
      by_cases h2 : q.cls = .functional
      · exact ⟨some 0, by rw [if_neg h1, if_pos h2]⟩
      have hd : ∃ d, dti22 T.t615 q = .ok d := by
        unfold dti22
        split
        · exact ⟨0, rfl⟩
        · rename_i hn
          push Not at hn
          obtain ⟨z, hz⟩ := interp_total (hT.t615.t22 _ hn.2.1 hn.2.2).1.1 (hT.t615.t22 _ hn.2.1 hn.2.2).1.2 q.vrms
          exact ⟨z, by rw [hz]; rfl⟩
      obtain ⟨d, hd⟩ := hd
      by_cases hf : q.freq > lineFrequency
      · exact ⟨some (ceilFloat (max d s) 5), by
          rw [if_neg h1, if_neg h2]; exact ⟨d, hd, by rw [if_pos hf]; exact ⟨s, hs, rfl⟩⟩⟩
      · exact ⟨some (ceilFloat d 5), by rw [if_neg h1, if_neg h2]; exact ⟨d, hd, by rw [if_neg hf]⟩⟩
  exact ⟨fun s => (this s).choose, fun s => (this s).choose_spec⟩

example : dti603 Shipped.t603 sample = .ok 0 ∧ dti603 Shipped.t603 { sample with cls := .reinforced } = .ok (2 / 1000) ∧
    dti623 sample = 0 ∧ dti623 { sample with cls := .reinforced } = 4 / 10000 := by
  refine ⟨?_, ?_, ?_, ?_⟩ <;> decide +kernel

/-! ## C57: the creepage distance covers the clearance -/

/-- C57 (IEC 62368, IEC 61558): with the clearance included, the creepage distance is never below the clearance. -/
theorem creepage_covers_clearance {T6 : T60664 K} {T5 : T61558 K} {T8 : T62368 K} {q : Query K} {c d : K} :
    (creepage623 T8 q true = .ok c → clearance623 T8 q = .ok d → d ≤ c) ∧
    (creepage615 P T6 T5 q true = .ok c → clearance615 P T6 T5 q = .ok d → d ≤ c) := by
  constructor
  · intro hc hd
    unfold creepage623 at hc
    split at hc
    · rename_i hw
      unfold clearance623 at hd
      rw [if_pos hw, hc] at hd
      exact (Out.ok.inj hd).symm.le
    · simp only [if_true] at hc
      rw [Out.max2_eq_ok] at hc
      obtain ⟨a, b, -, hb, rfl⟩ := hc
      rw [hd] at hb
      cases hb
      exact le_max_right _ _
  · intro hc hd
    unfold creepage615 guardSupply at hc
    split at hc
    · simp at hc
    · rename_i hm
      split at hc
      · rename_i hf
        unfold clearance615 guardSupply at hd
        rw [if_neg hm, if_pos hf] at hd
        cases hc; cases hd
        exact le_refl _
      · simp only [if_true] at hc
        rw [Out.bind_eq_ok] at hc
        obtain ⟨e, he, hc⟩ := hc
        cases hc
        rw [Out.max2_eq_ok] at he
        obtain ⟨a, b, -, hb, rfl⟩ := he
        rw [hd] at hb
        cases hb
        exact le_trans (le_max_right a d) (ceilFloat_ge _ 5).1

/-- C57 (IEC 60335, and IEC 60664 when the code does not leave the clearance out): up to the rounding to five
decimals, which goes down as well as up. The rest is false, see `creepage664_below_clearance`. -/
theorem creepage_covers_clearance_rounded_partial {T6 : T60664 K} {T3 : T60335 K} {q : Query K} {c d : K} :
    (creepage603 P T6 T3 q true = .ok c → clearance603 P T6 T3 q = .ok d → d ≤ c + 1 / (2 * 10 ^ 5)) ∧
    (creepage664 P T6 q true = .ok c → clearance664 P T6 q = .ok d → ¬ Skips T6 q → d ≤ c + 1 / (2 * 10 ^ 5)) := by
  constructor
  · intro hc hd
    unfold creepage603 at hc
    simp only [if_true] at hc
    rw [Out.bind_eq_ok] at hc
    obtain ⟨e, he, hc⟩ := hc
    cases hc
    rw [Out.max2_eq_ok] at he
    obtain ⟨a, b, -, hb, rfl⟩ := he
    rw [hd] at hb
    cases hb
    have h1 := (abs_le.mp (roundFloat_near (max a d) 5)).1
    have h2 : d ≤ max a d := le_max_right _ _
    linarith
  · intro hc hd hs
    obtain ⟨e, s, he, hsk, h⟩ := creepage664_eq_ok hc
    have : s ≠ true := by rintro rfl; exact hs ⟨e, he, hsk⟩
    rcases h with ⟨h | h, -⟩ | ⟨-, -, b, hb, rfl⟩
    · exact absurd h this
    · simp at h
    · rw [hd] at hb
      cases hb
      have h1 := (abs_le.mp (roundFloat_near (max e d) 5)).1
      have h2 : d ≤ max e d := le_max_right _ _
      linarith

/-- The hypotheses are met: an input both calculations of IEC 60664 answer and for which nothing is left out. -/
example : ¬ Skips Shipped.t664 { sample with pd := .pd3 } ∧
    (∃ c d, creepage664 steps Shipped.t664 { sample with pd := .pd3 } true = .ok c ∧
      clearance664 steps Shipped.t664 { sample with pd := .pd3 } = .ok d ∧ 0 < d) := by
  refine ⟨?_, ?_⟩
  · rintro ⟨c, -, h⟩
    simp [maySkipClearance] at h
  · exact ⟨1 / 200, 1 / 1250, by decide +kernel, by decide +kernel, by norm_num⟩

/-- C57, disagreement (IEC 60664): with the clearance included, the creepage distance is 11.2 mm where the
clearance is more than 33 mm. -/
theorem creepage664_below_clearance :
    creepage664 steps Shipped.t664
      { sample with cls := .double, cti := .groupII, altitude := 10000, main := 240, vrms := 1320, vpeak := 1848 } true
      = .ok (112 / 10000) ∧
    ∃ d, clearance664 steps Shipped.t664
      { sample with cls := .double, cti := .groupII, altitude := 10000, main := 240, vrms := 1320, vpeak := 1848 }
      = .ok d ∧ 33 / 1000 < d := by
  refine ⟨by decide +kernel, 1661 / 50000, by decide +kernel, by norm_num⟩

/-- C57, disagreement (IEC 60335): the final rounding may go below the clearance. -/
theorem creepage603_rounds_below :
    ∃ c d, creepage603 steps Shipped.t664 Shipped.t603
        { sample with altitude := 2001, vpeak := 6000, vpeak0 := 48, cti := .groupI } true = .ok c ∧
      clearance603 steps Shipped.t664 Shipped.t603
        { sample with altitude := 2001, vpeak := 6000, vpeak0 := 48, cti := .groupI } = .ok d ∧ c < d := by
  refine ⟨79 / 10000, 3950553 / 500000000, by decide +kernel, by decide +kernel, by norm_num⟩

/-! ## C58: the tables never give undefined values -/

theorem ofVal_rows_ne_odd {t : Table K} (h : Rows t) (x : K) : Out.ofVal (interp t x) ≠ .odd := by
  obtain ⟨v, hv⟩ := interp_total h.1 h.2 x
  rw [hv]
  simp [Out.ofVal]

theorem bind_ne_odd {o : Out K} {f : K → Out K} (h1 : o ≠ .odd) (h2 : ∀ v, o = .ok v → f v ≠ .odd) : o.bind f ≠ .odd := by
  intro h
  rw [Out.bind_eq_odd] at h
  rcases h with h | ⟨v, hv, h⟩
  · exact h1 h
  · exact h2 v hv h

theorem max2_ne_odd {a b : Out K} (h1 : a ≠ .odd) (h2 : b ≠ .odd) : a.max2 b ≠ .odd := by
  intro h
  rw [Out.max2_eq_odd] at h
  rcases h with h | ⟨-, h⟩
  · exact h1 h
  · exact h2 h

theorem clearance664_ne_odd (hP : P.Lawful) {T : T60664 K} (hT : Sound664 T) (q : Query K) :
    clearance664 P T q ≠ .odd := by
  have hw : ∀ v, steadyWound P T q v ≠ .odd := by
    intro v
    unfold steadyWound
    refine bind_ne_odd (Out.ofOption_ne_odd _) (fun c hc => ?_)
    split
    · rename_i hf
      rw [over30k_eq hP hf (lookupLe_ge hT.f8_ge (Out.ofOption_eq_ok.mp hc))]
      split
      · simp
      · exact ofVal_rows_ne_odd hT.p4t1 _
    · simp
  have hp := fun a => (planar_sound hT a).1
  unfold clearance664
  refine bind_ne_odd (Out.ofOption_ne_odd _) (fun imp _ => bind_ne_odd (max2_ne_odd ?_ ?_) (fun c _ => ?_))
  · unfold transientClearance planarOr
    split
    · split
      · exact ofVal_rows_ne_odd (hp _) _
      · exact Out.ofOption_ne_odd _
    · exact Out.ofOption_ne_odd _
  · unfold steadyClearance planarOr
    split
    · split
      · exact ofVal_rows_ne_odd (hp _) _
      · exact hw _
    · exact hw _
  · unfold altitude664
    split
    · exact bind_ne_odd (ofVal_rows_ne_odd hT.a2 _) (by simp)
    · simp

theorem creepage664_ne_odd (hP : P.Lawful) {T : T60664 K} (hT : Sound664 T) (q : Query K) (inc : Bool) :
    creepage664 P T q inc ≠ .odd := by
  have h5 : ∀ v, creepageF5 T q.pd q.cti v ≠ .odd := by
    intro v
    unfold creepageF5
    split
    · simp
    · exact Out.ofOption_ne_odd _
  have hw : ∀ v, creepageWound T q v ≠ .odd := by
    intro v
    unfold creepageWound
    split
    · refine max2_ne_odd (h5 v) (bind_ne_odd ?_ (by simp))
      exact overFreq_ne_odd (fun r hr => (hT.p4t2.1 r hr).1) hT.p4t2.2
    · exact h5 v
  unfold creepage664 creepageRaw664
  refine bind_ne_odd (bind_ne_odd (Out.ofOption_ne_odd _) (fun r _ => bind_ne_odd ?_ (by simp))) (fun c _ => ?_)
  · unfold creepageBase664
    split
    · split
      · simp
      · rename_i t ht
        unfold planarOr
        split
        · exact ofVal_rows_ne_odd (hT.p5t4 _ _ _ ht).1 _
        · exact hw _
    · exact hw _
  · split
    · simp
    · split
      · exact bind_ne_odd (clearance664_ne_odd hP hT q) (by simp)
      · simp

theorem clearance623_ne_odd {T : T62368 K} (hT : Sound623 T) (q : Query K) : clearance623 T q ≠ .odd := by
  unfold clearance623
  split
  · exact bind_ne_odd (ofVal_rows_ne_odd (hT.g13 _) _) (by simp)
  · refine bind_ne_odd ?_ (fun c1 _ => bind_ne_odd (Out.ofOption_ne_odd _) (fun m _ => bind_ne_odd ?_
      (fun c2 _ => bind_ne_odd ?_ (by simp))))
    · split
      · exact bind_ne_odd (ofVal_rows_ne_odd (hT.t10 _ _).1 _) (by simp)
      · exact bind_ne_odd (ofVal_rows_ne_odd (hT.t11 _).1 _) (by simp)
    · exact bind_ne_odd (ofVal_rows_ne_odd (hT.t14 _ _).1 _) (by simp)
    · exact bind_ne_odd (ofVal_rows_ne_odd hT.t16 _) (by simp)

theorem loop18_ne_odd {t : FreqTable K} (h : ∀ r ∈ t, Rows r.2) (x f prev : K) : loop18 x f prev t ≠ .odd := by
  induction t generalizing prev with
  | nil => simp [loop18]
  | cons p t ih =>
    obtain ⟨p1, p2⟩ := p
    simp only [loop18]
    split
    · exact ofVal_rows_ne_odd (h (p1, p2) (by simp)) _
    · exact ih (fun r hr => h r (List.mem_cons_of_mem _ hr)) _

theorem creepage623_ne_odd {T : T62368 K} (hT : Sound623 T) (q : Query K) (inc : Bool) : creepage623 T q inc ≠ .odd := by
  have h17 : creepage17 T q ≠ .odd := bind_ne_odd (ofVal_rows_ne_odd (hT.t17 _ _).1 _) (by simp)
  have h18 : creepage18 T q ≠ .odd := bind_ne_odd (loop18_ne_odd hT.t18.1.1 _ _ _) (by simp)
  have hr : creepageRaw623 T q ≠ .odd := by
    unfold creepageRaw623
    split
    · exact h17
    · exact max2_ne_odd h17 h18
  unfold creepage623
  split
  · exact bind_ne_odd (ofVal_rows_ne_odd (hT.g13 _) _) (by simp)
  · split
    · exact max2_ne_odd hr (clearance623_ne_odd hT q)
    · exact hr

theorem clearance615_ne_odd (hP : P.Lawful) {T6 : T60664 K} {T : T61558 K} (h6 : Sound664 T6) (q : Query K) :
    clearance615 P T6 T q ≠ .odd := by
  unfold clearance615 guardSupply
  split
  · simp
  · split
    · simp
    · refine bind_ne_odd ?_ (fun c _ => ?_)
      · unfold clearance20
        split
        · simp
        · exact Out.ofOption_ne_odd _
      · split
        · exact clearance664_ne_odd hP h6 q
        · split
          · refine bind_ne_odd ?_ (by simp)
            unfold clearanceHigh615
            split
            · simp
            · refine bind_ne_odd (Out.ofOption_ne_odd _) (fun x _ => ?_)
              split <;> simp
          · simp

theorem creepage615_ne_odd (hP : P.Lawful) {T6 : T60664 K} {T : T61558 K} (h6 : Sound664 T6) (hT : Sound615 T)
    (q : Query K) (inc : Bool) : creepage615 P T6 T q inc ≠ .odd := by
  have h21 : creepage21 T q ≠ .odd := by
    unfold creepage21
    split
    · simp
    · rename_i h
      push Not at h
      exact ofVal_rows_ne_odd (hT.t21 _ _ _ h.2).1 _
  have hh : creepageHigh615 T q ≠ .odd := by
    unfold creepageHigh615
    split
    · simp
    · exact overFreq_ne_odd (freqBelow_left (hT.tHigh_le _ _ _ _ id (le_refl _))) (hT.tHigh _ _).2
  have hr : creepageRaw615 T q ≠ .odd := by
    unfold creepageRaw615
    split
    · exact max2_ne_odd h21 hh
    · exact h21
  unfold creepage615 guardSupply
  split
  · simp
  · split
    · simp
    · refine bind_ne_odd ?_ (by simp)
      split
      · exact max2_ne_odd hr (clearance615_ne_odd hP h6 q)
      · exact hr

theorem clearance603_ne_odd (hP : P.Lawful) {T6 : T60664 K} {T : T60335 K} (h6 : Sound664 T6) (q : Query K) :
    clearance603 P T6 T q ≠ .odd := by
  unfold clearance603
  split
  · simp
  · refine bind_ne_odd (Out.ofOption_ne_odd _) (fun imp _ => bind_ne_odd ?_ (fun c _ => ?_))
    · exact bind_ne_odd (Out.ofOption_ne_odd _) (by simp)
    · split
      · exact bind_ne_odd (clearance664_ne_odd hP h6 q) (by simp)
      · simp

/-- C58: no calculation of any of the four standards ever goes through an undefined value of a table (undefined
behaviour, `DBL_MAX`, a division by zero): it answers or throws. -/
theorem never_odd (hP : P.Lawful) (hT : Sound T) (q : Query K) (s : Standard) (inc : Bool) :
    withstandOf P T q s ≠ .odd ∧ clearanceOf P T q s ≠ .odd ∧ creepageOf P T q inc s ≠ .odd := by
  cases s with
  | iec60664 =>
    exact ⟨bind_ne_odd (Out.ofOption_ne_odd _) (by simp), clearance664_ne_odd hP hT.t664 q,
      creepage664_ne_odd hP hT.t664 q inc⟩
  | iec62368 =>
    exact ⟨max2_ne_odd (ofVal_rows_ne_odd (hT.t623.t25 _) _)
      (max2_ne_odd (ofVal_rows_ne_odd (hT.t623.t26 _) _) (Out.ofOption_ne_odd _)), clearance623_ne_odd hT.t623 q,
      creepage623_ne_odd hT.t623 q inc⟩
  | iec61558 =>
    refine ⟨?_, clearance615_ne_odd hP hT.t664 q, creepage615_ne_odd hP hT.t664 hT.t615 q inc⟩
    simp only [withstandOf, withstand615, guardSupply]
    split
    · simp
    · refine bind_ne_odd (ofVal_rows_ne_odd (hT.t615.t14 _ _) _) (fun w _ => ?_)
      split <;> simp
  | iec60335 =>
    refine ⟨?_, clearance603_ne_odd hP hT.t664 q, ?_⟩
    · simp only [withstandOf, withstand603]
      split
      · simp
      · exact bind_ne_odd (Out.ofOption_ne_odd _) (by simp)
    · have hr : creepageRaw603 P T.t664 T.t603 q ≠ .odd := by
        unfold creepageRaw603
        split
        · split
          · exact Out.ofOption_ne_odd _
          · exact bind_ne_odd (Out.ofOption_ne_odd _) (by simp)
        · exact creepage664_ne_odd hP hT.t664 q false
      simp only [creepageOf, creepage603]
      refine bind_ne_odd ?_ (by simp)
      split
      · exact max2_ne_odd hr (clearance603_ne_odd hP hT.t664 q)
      · exact hr

/-- A step table answers exactly up to its last row. -/
theorem lookupLe_answers {t : Table K} (ht : Rows t) (x : K) : (∃ v, lookupLe t x = some v) ↔ x ≤ (lastOf t).1 := by
  obtain ⟨a, b, l, rfl⟩ := two_rows ht.2
  constructor
  · rintro ⟨v, hv⟩
    obtain ⟨r, hr, -, hx⟩ := lookupLe_mem hv
    exact le_trans hx (le_lastRow ht.1 r hr)
  · intro hx
    cases h : lookupLe (a :: b :: l) x with
    | some v => exact ⟨v, rfl⟩
    | none =>
      have := (lookupLe_spec (a :: b :: l) x).2.mp h _ (lastRow_mem a (b :: l))
      exact absurd hx (not_le.mpr this)

/-- The voltages within which the shipped tables of IEC 60664 answer, for every input: the clearance up to 1500 V
rms and a steady-state peak of 50 kV, the withstand voltage up to 1500 V rms. -/
theorem answers664 {P : Phys ℚ} (hP : P.Lawful) (q : Query ℚ) :
    ((∃ v, clearance664 P Shipped.t664 q = .ok v) ↔ q.vrms ≤ 1500 ∧ steady664 q ≤ 50000) ∧
    ((∃ v, withstand664 P Shipped.t664 q = .ok v) ↔ q.vrms ≤ 1500) := by
  have hT := Shipped.sound664
  have himp : (∃ v, impulse664 Shipped.t664 q.ovc q.vrms q.cls = .ok v) ↔ q.vrms ≤ 1500 := by
    have hr : Rows (f1Rows Shipped.t664 q.ovc q.cls.strong) := ⟨hT.f1 _ _,
      (by decide +kernel : ∀ o b, 2 ≤ (f1Rows Shipped.t664 o b).length) _ _⟩
    have hl : (lastOf (f1Rows Shipped.t664 q.ovc q.cls.strong)).1 = 1500 :=
      (by decide +kernel : ∀ o b, (lastOf (f1Rows Shipped.t664 o b)).1 = 1500) _ _
    have := lookupLe_answers hr q.vrms
    rw [hl] at this
    rw [← this]
    simp only [impulse_eq, Out.ofOption_eq_ok]
  have h8 : ∀ x, (∃ v, lookupLe Shipped.t664.f8 x = some v) ↔ x ≤ 50000 := by
    intro x
    have hl : (lastOf Shipped.t664.f8).1 = 50000 := by decide +kernel
    have := lookupLe_answers (t := Shipped.t664.f8) ⟨hT.f8, by decide +kernel⟩ x
    rwa [hl] at this
  have hw : ∀ x, (∃ v, steadyWound P Shipped.t664 q x = .ok v) ↔ x ≤ 50000 := by
    intro x
    rw [← h8 x]
    constructor
    · rintro ⟨v, hv⟩
      unfold steadyWound at hv
      rw [Out.bind_eq_ok] at hv
      obtain ⟨c, hc, -⟩ := hv
      exact ⟨c, Out.ofOption_eq_ok.mp hc⟩
    · rintro ⟨c, hc⟩
      unfold steadyWound
      rw [hc]
      simp only [Out.ofOption, Out.bind]
      split
      · rename_i hf
        rw [over30k_eq hP hf (lookupLe_ge hT.f8_ge hc)]
        split
        · exact ⟨_, rfl⟩
        · obtain ⟨z, hz⟩ := interp_total hT.p4t1.1 hT.p4t1.2 x
          exact ⟨z, by rw [hz]; rfl⟩
      · exact ⟨_, rfl⟩
  have h3000 : ∀ a x, inside (planarTable Shipped.t664 a) x = true → x ≤ 50000 := by
    intro a x hx
    rw [inside_iff (planar_sound hT a).1] at hx
    have : (lastOf (planarTable Shipped.t664 a)).1 = 3000 := by
      unfold planarTable
      split <;> decide +kernel
    rw [this] at hx
    linarith
  have hst : (∃ v, steadyClearance P Shipped.t664 q (steady664 q) = .ok v) ↔ steady664 q ≤ 50000 := by
    unfold steadyClearance planarOr
    split
    · split
      · rename_i hin
        obtain ⟨z, hz⟩ := interp_total (planar_sound hT q.altitude).1.1 (planar_sound hT q.altitude).1.2 (steady664 q)
        exact ⟨fun _ => h3000 _ _ hin, fun _ => ⟨z, by rw [hz]; rfl⟩⟩
      · exact hw _
    · exact hw _
  have htr : ∀ imp, impulse664 Shipped.t664 q.ovc q.vrms q.cls = .ok imp →
      ∃ v, transientClearance Shipped.t664 q imp = .ok v := by
    intro imp himp
    have hi : imp ≤ 100000 := by
      rw [impulse_eq, Out.ofOption_eq_ok] at himp
      obtain ⟨r, hr, rfl, -⟩ := lookupLe_mem himp
      exact (by decide +kernel : ∀ o b, ∀ r ∈ f1Rows Shipped.t664 o b, r.2 ≤ 100000) _ _ r hr
    have h2 : ∃ v, lookupLe (Shipped.t664.f2 q.pd) imp = some v := by
      rw [lookupLe_answers ⟨(hT.f2 q.pd).1, (by decide +kernel : ∀ p, 2 ≤ (Shipped.t664.f2 p).length) _⟩]
      rw [(by decide +kernel : ∀ p, (lastOf (Shipped.t664.f2 p)).1 = 100000) q.pd]
      exact hi
    obtain ⟨z, hz⟩ := h2
    unfold transientClearance planarOr
    split
    · split
      · obtain ⟨y, hy⟩ := interp_total (planar_sound hT q.altitude).1.1 (planar_sound hT q.altitude).1.2 imp
        exact ⟨y, by rw [hy]; rfl⟩
      · exact ⟨z, by rw [hz]; rfl⟩
    · exact ⟨z, by rw [hz]; rfl⟩
  constructor
  · constructor
    · rintro ⟨v, hv⟩
      unfold clearance664 at hv
      rw [Out.bind_eq_ok] at hv
      obtain ⟨imp, hi, hv⟩ := hv
      rw [Out.bind_eq_ok] at hv
      obtain ⟨m, hm, -⟩ := hv
      rw [Out.max2_eq_ok] at hm
      obtain ⟨a, b, -, hb, -⟩ := hm
      exact ⟨himp.mp ⟨imp, hi⟩, hst.mp ⟨b, hb⟩⟩
    · rintro ⟨h1, h2⟩
      obtain ⟨imp, hi⟩ := himp.mpr h1
      obtain ⟨b, hb⟩ := hst.mpr h2
      obtain ⟨a, ha⟩ := htr imp hi
      unfold clearance664
      rw [hi]
      simp only [Out.bind, ha, hb, Out.max2]
      unfold altitude664
      split
      · obtain ⟨z, hz⟩ := interp_total hT.a2.1 hT.a2.2 q.altitude
        exact ⟨_, by rw [hz]; rfl⟩
      · exact ⟨_, rfl⟩
  · constructor
    · rintro ⟨v, hv⟩
      unfold withstand664 at hv
      rw [Out.bind_eq_ok] at hv
      obtain ⟨imp, hi, -⟩ := hv
      exact himp.mp ⟨imp, hi⟩
    · intro h1
      obtain ⟨imp, hi⟩ := himp.mpr h1
      unfold withstand664
      rw [hi]
      exact ⟨_, rfl⟩

/-- A table read with `<` answers exactly below its last row. -/
theorem lookupLt_answers {t : Table K} (ht : Rows t) (x : K) : (∃ v, lookupLt t x = some v) ↔ x < (lastOf t).1 := by
  obtain ⟨a, b, l, rfl⟩ := two_rows ht.2
  constructor
  · rintro ⟨v, hv⟩
    obtain ⟨r, hr, -, hx⟩ := lookupLt_mem hv
    exact lt_of_lt_of_le hx (le_lastRow ht.1 r hr)
  · intro hx
    cases h : lookupLt (a :: b :: l) x with
    | some v => exact ⟨v, rfl⟩
    | none =>
      have := (lookupLt_spec (a :: b :: l) x).2.mp h _ (lastRow_mem a (b :: l))
      exact absurd hx (not_lt.mpr this)

/-- The supply voltages within which the shipped tables of IEC 62368, IEC 61558 and IEC 60335 answer, whatever the
other inputs are. IEC 60335 never answers a clearance for overvoltage category IV. -/
theorem answers_others (q : Query ℚ) :
    ((∃ v, withstand623 Shipped.t623 q = .ok v) ↔ q.main < 600) ∧
    ((∃ v, clearance623 Shipped.t623 q = .ok v) ↔ q.wiring = some .printed ∨ q.main ≤ 690) ∧
    ((∃ v, withstand615 Shipped.t615 q = .ok v) ↔ q.main ≤ 1100) ∧
    ((∃ v, withstand603 Shipped.t603 q = .ok v) ↔ q.cls = .functional ∨ (q.main ≤ 250 ∧ q.vrms0 ≤ 250)) ∧
    ((∃ v, clearance603 steps Shipped.t664 Shipped.t603 { q with altitude := 0, freq := 50, vrms := q.vrms0 } = .ok v) ↔
      q.ovc ≠ .iv ∧ q.main ≤ 300 ∧ q.vrms0 ≤ 300) := by
  have h8 := Shipped.sound623
  have h5 := Shipped.sound615
  have h3 := Shipped.sound603
  refine ⟨?_, ?_, ?_, ?_, ?_⟩
  · have hl : (lastOf (Shipped.t623.t27 q.cls.strong)).1 = 600 :=
      (by decide +kernel : ∀ b, (lastOf (Shipped.t623.t27 b)).1 = 600) _
    have hr := lookupLt_answers ⟨h8.t27 q.cls.strong,
      (by decide +kernel : ∀ b, 2 ≤ (Shipped.t623.t27 b).length) _⟩ q.main
    rw [hl] at hr
    rw [← hr]
    unfold withstand623
    obtain ⟨a, ha⟩ := interp_total (h8.t25 q.cls.strong).1 (h8.t25 q.cls.strong).2 q.vpeak
    obtain ⟨b, hb⟩ := interp_total (h8.t26 q.cls.strong).1 (h8.t26 q.cls.strong).2 q.vpeak
    rw [ha, hb]
    cases lookupLt (Shipped.t623.t27 q.cls.strong) q.main <;> simp [Out.ofVal, Out.ofOption, Out.max2, Out.bind]
  · have hl : (lastOf (Shipped.t623.t12 q.ovc)).1 = 690 :=
      (by decide +kernel : ∀ b, (lastOf (Shipped.t623.t12 b)).1 = 690) _
    have hr := lookupLe_answers ⟨h8.t12 q.ovc, (by decide +kernel : ∀ b, 2 ≤ (Shipped.t623.t12 b).length) _⟩ q.main
    rw [hl] at hr
    unfold clearance623
    by_cases hp : q.wiring = some .printed
    · rw [if_pos hp]
      obtain ⟨a, ha⟩ := interp_total (h8.g13 q.cls.strong).1 (h8.g13 q.cls.strong).2 q.vpeak
      unfold distanceG13
      rw [ha]
      simp [Out.ofVal, Out.bind, hp]
    · rw [if_neg hp, ← hr]
      simp only [hp, false_or]
      have hc : ∀ b p (x : ℚ), ∃ v, clearanceTable (Shipped.t623.t10 b p) x = .ok v := by
        intro b p x
        obtain ⟨a, ha⟩ := interp_total (h8.t10 b p).1.1 (h8.t10 b p).1.2 x
        exact ⟨_, by unfold clearanceTable; rw [ha]; rfl⟩
      have hd : ∀ b p (x : ℚ), ∃ v, clearanceTable (Shipped.t623.t14 b p) x = .ok v := by
        intro b p x
        obtain ⟨a, ha⟩ := interp_total (h8.t14 b p).1.1 (h8.t14 b p).1.2 x
        exact ⟨_, by unfold clearanceTable; rw [ha]; rfl⟩
      have he : ∃ v, clearance11 Shipped.t623 q.cls q.pd q.vpeak = .ok v := by
        obtain ⟨a, ha⟩ := interp_total (h8.t11 q.cls.strong).1.1 (h8.t11 q.cls.strong).1.2 q.vpeak
        exact ⟨_, by unfold clearance11; rw [ha]; rfl⟩
      have hf : ∃ v, altitudeFactor623 Shipped.t623 q.altitude = .ok v := by
        obtain ⟨a, ha⟩ := interp_total h8.t16.1 h8.t16.2 q.altitude
        exact ⟨_, by unfold altitudeFactor623; rw [ha]; rfl⟩
      have hg : ∃ v, (if q.freq ≤ lineFrequency then
          clearanceTable (Shipped.t623.t10 q.cls.strong q.pd) (max q.vpeak (max q.vpeak (temporary623 q.main)))
          else clearance11 Shipped.t623 q.cls q.pd q.vpeak) = .ok v := by
        split
        · exact hc _ _ _
        · exact he
      obtain ⟨g, hg⟩ := hg
      obtain ⟨f, hf⟩ := hf
      rw [hg]
      simp only [Out.bind]
      cases h : lookupLe (Shipped.t623.t12 q.ovc) q.main with
      | none => simp [Out.ofOption]
      | some m =>
        obtain ⟨d, hd⟩ := hd q.cls.strong q.pd (max q.vpeak m)
        simp [Out.ofOption, hd, hf]
  · unfold withstand615 guardSupply
    obtain ⟨a, ha⟩ := interp_total (h5.t14 q.ovc q.cls).1 (h5.t14 q.ovc q.cls).2 q.vrms
    rw [ha]
    simp only [Out.ofVal, Out.bind]
    by_cases hm : q.main > 1100
    · rw [if_pos hm]
      simp only [reduceCtorEq, exists_false, false_iff, not_le]
      exact hm
    · rw [if_neg hm]
      simp only [not_lt.mp hm, iff_true]
      split
      · exact ⟨_, rfl⟩
      · exact ⟨_, rfl⟩
  · unfold withstand603
    by_cases hc : q.cls = .functional
    · simp [hc]
    · rw [if_neg hc]
      have hl : (lastOf (Shipped.t603.t7 q.cls)).1 = 250 :=
        (by decide +kernel : ∀ b, b ≠ Cls.functional → (lastOf (Shipped.t603.t7 b)).1 = 250) _ hc
      have hr := lookupLe_answers ⟨(h3.t7 q.cls).1,
        (by decide +kernel : ∀ b, b ≠ Cls.functional → 2 ≤ (Shipped.t603.t7 b).length) _ hc⟩ (rated603 q)
      rw [hl] at hr
      have hm : rated603 q ≤ 250 ↔ q.main ≤ 250 ∧ q.vrms0 ≤ 250 := by unfold rated603; exact max_le_iff
      simp only [hc, false_or]
      rw [← hm, ← hr]
      cases lookupLe (Shipped.t603.t7 q.cls) (rated603 q) <;> simp [Out.ofOption, Out.bind]
  · unfold clearance603
    have hu : ¬ Uses664 ({ q with altitude := 0, freq := 50, vrms := q.vrms0 } : Query ℚ) := by
      unfold Uses664
      simp only [gt_iff_lt, lt_self_iff_false, false_or, altitudeLimit, lineFrequency]
      norm_num
    by_cases hc : q.ovc = .iv
    · simp [hc]
    · simp only [if_neg hc, if_neg hu]
      have hl : (lastOf (Shipped.t603.t15 q.ovc)).1 = 300 :=
        (by decide +kernel : ∀ b, b ≠ Ovc.iv → (lastOf (Shipped.t603.t15 b)).1 = 300) _ hc
      have hr := lookupLe_answers ⟨h3.t15 q.ovc,
        (by decide +kernel : ∀ b, b ≠ Ovc.iv → 2 ≤ (Shipped.t603.t15 b).length) _ hc⟩ (rated603 q)
      rw [hl] at hr
      have hm : rated603 q ≤ 300 ↔ q.main ≤ 300 ∧ q.vrms0 ≤ 300 := by unfold rated603; exact max_le_iff
      rw [← hm, ← hr]
      have hrq : rated603 ({ q with altitude := 0, freq := 50, vrms := q.vrms0 } : Query ℚ) = rated603 q := rfl
      rw [hrq]
      cases h : lookupLe (Shipped.t603.t15 q.ovc) (rated603 q) with
      | none => simp [Out.ofOption, Out.bind]
      | some imp =>
        have hi : imp ≤ 10000 := by
          obtain ⟨r, hr, rfl, -⟩ := lookupLe_mem h
          exact (by decide +kernel : ∀ o, ∀ r ∈ Shipped.t603.t15 o, r.2 ≤ 10000) _ r hr
        obtain ⟨z, hz⟩ := (lookupLe_answers ⟨h3.t16 q.cls.strong,
          (by decide +kernel : ∀ b, 2 ≤ (t16Rows Shipped.t603 b).length) _⟩ imp).mpr
            (by rw [(by decide +kernel : ∀ b, (lastOf (t16Rows Shipped.t603 b)).1 = 10000) q.cls.strong]; exact hi)
        simp only [Out.ofOption, Out.bind, clearance16]
        unfold t16Rows at hz
        rw [hz]
        simp [hc]

/-! ## C59: frequency -/

/-- C59: the withstand voltage of every standard does not fall when only the frequency rises. -/
theorem withstand_frequency (q : Query K) (s : Standard) {f g : K} (hfg : f ≤ g) :
    (withstandOf P T { q with freq := f } s).Le (withstandOf P T { q with freq := g } s) := by
  cases s with
  | iec60335 => intro v w hv hw; rw [show withstandOf P T { q with freq := f } .iec60335 =
      withstandOf P T { q with freq := g } .iec60335 from rfl, hw] at hv; exact (Out.ok.inj hv).symm.le
  | iec60664 => intro v w hv hw; rw [show withstandOf P T { q with freq := f } .iec60664 =
      withstandOf P T { q with freq := g } .iec60664 from rfl, hw] at hv; exact (Out.ok.inj hv).symm.le
  | iec62368 => intro v w hv hw; rw [show withstandOf P T { q with freq := f } .iec62368 =
      withstandOf P T { q with freq := g } .iec62368 from rfl, hw] at hv; exact (Out.ok.inj hv).symm.le
  | iec61558 =>
    simp only [withstandOf, withstand615]
    refine guardSupply_le (le_refl _) ?_
    apply Out.Le.bind
    intro v w hv hw
    rw [hv] at hw
    cases hw
    by_cases h1 : f > lineFrequency
    · rw [if_pos h1, if_pos (lt_of_lt_of_le h1 hfg)]
      exact Out.Le.ok (le_refl _)
    · rw [if_neg h1]
      split
      · exact Out.Le.ok (le_max_left _ _)
      · exact Out.Le.ok (le_refl _)

/-- C59 (IEC 62368): without the clearance, the creepage distance does not fall when only the frequency rises. The
other calculations do, see the disagreements below. -/
theorem creepage623_frequency_partial {T : T62368 K} (hT : Sound623 T) (q : Query K) {f g : K} (hfg : f ≤ g) :
    (creepage623 T { q with freq := f } false).Le (creepage623 T { q with freq := g } false) := by
  unfold creepage623
  simp only [Bool.false_eq_true, if_false]
  split
  · intro v w hv hw; rw [hw] at hv; exact (Out.ok.inj hv).symm.le
  · exact creepageRaw623_le hT (le_refl _) (le_refl _) (Or.inl rfl) (le_refl _) hfg

example : (creepage623 Shipped.t623 { sample with freq := 50 } false ≠ .threw) ∧
    (creepage623 Shipped.t623 { sample with freq := 200000 } false ≠ .threw) := by
  constructor <;> decide +kernel

/-- C59, disagreement (IEC 60664): the increase of up to 25 % for the homogeneous field is never applied; the
clearance enters the critical frequency in metres, where the formula of the standard takes millimetres. -/
theorem homogeneous_increase_dead (hP : P.Lawful) {T : T60664 K} (hT : Sound664 T) (q : Query K) {v c x : K}
    (hf : lineFrequency < q.freq) (hc : lookupLe T.f8 v = some c) (hx : steadyWound P T q v = .ok x) :
    x = c ∨ interp T.p4t1 v = .ok x := by
  unfold steadyWound at hx
  rw [hc] at hx
  simp only [Out.ofOption, Out.bind] at hx
  rw [if_pos hf, over30k_eq hP hf (lookupLe_ge hT.f8_ge hc)] at hx
  split at hx
  · exact Or.inl (Out.ok.inj hx).symm
  · exact Or.inr (Out.ofVal_eq_ok.mp hx)

/-- C59, disagreement (IEC 60664): the clearance falls when the frequency rises from 1 MHz to 2 MHz, because the
table for high frequencies replaces the steady-state clearance instead of raising it. -/
theorem clearance664_frequency_lowers :
    clearance664 steps Shipped.t664 { sample with vrms := 50, vpeak := 801, freq := 10 ^ 6 } = .ok (26 / 100000) ∧
    ∃ v, clearance664 steps Shipped.t664 { sample with vrms := 50, vpeak := 801, freq := 2 * 10 ^ 6 } = .ok v ∧
      v < 19 / 100000 := by
  refine ⟨by decide +kernel, 227 / 1250000, by decide +kernel, by norm_num⟩

/-- C59, disagreement (IEC 62368): the clearance falls from 1.27 mm to 0.06 mm above 30 kHz. -/
theorem clearance623_frequency_lowers :
    clearance623 Shipped.t623 { sample with cls := .supplementary, main := 12, vpeak := 600, freq := 30000 }
      = .ok (127 / 100000) ∧
    clearance623 Shipped.t623 { sample with cls := .supplementary, main := 12, vpeak := 600, freq := 300000 }
      = .ok (6 / 100000) := by
  constructor <;> decide +kernel

/-- C59, disagreement (IEC 60335): the creepage distance falls from 2.4 mm to 1.0 mm above 30 kHz, without the
clearance. -/
theorem creepage603_frequency_lowers :
    creepage603 steps Shipped.t664 Shipped.t603
      { sample with pd := .pd2, cls := .reinforced, cti := .groupIIIB, main := 12, vrms := 24, vpeak := 72,
                    vpeak0 := 36, freq := 30000 } false = .ok (24 / 10000) ∧
    creepage603 steps Shipped.t664 Shipped.t603
      { sample with pd := .pd2, cls := .reinforced, cti := .groupIIIB, main := 12, vrms := 24, vpeak := 72,
                    vpeak0 := 36, freq := 30001 } false = .ok (1 / 1000) := by
  constructor <;> decide +kernel

/-- C59, disagreement (IEC 61558): the creepage distance falls between 200 kHz and 202 kHz, where both tables are
extrapolated. -/
theorem creepage615_frequency_lowers :
    ∃ v w, creepage615 steps Shipped.t664 Shipped.t615
        { sample with cls := .double, vpeak := 3600, freq := 200000 } false = .ok v ∧
      creepage615 steps Shipped.t664 Shipped.t615
        { sample with cls := .double, vpeak := 3600, freq := 202000 } false = .ok w ∧ w < v := by
  refine ⟨139 / 1250, 5553 / 50000, by decide +kernel, by decide +kernel, by norm_num⟩

end Verif.Standards
