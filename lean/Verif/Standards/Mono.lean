import Verif.Standards.Spec

/-! Monotonicity of the four standards: helper lemmas. -/

set_option linter.unusedSectionVars false
set_option linter.unusedSimpArgs false

namespace Verif.Standards

open Verif.Insulation Verif.Round

variable {K : Type} [Field K] [LinearOrder K]

theorem Cls.strong_mono {c d : Cls} (h : c.le d) : c.strong = true → d.strong = true := by
  cases c <;> cases d <;> simp_all [Cls.le, Cls.strong, Cls.rank]

theorem Cls.functional_of_le {c d : Cls} (h : c.le d) (hd : d = .functional) : c = .functional := by
  cases c <;> cases d <;> simp_all [Cls.le, Cls.rank]

theorem Cls.basic_of_le {c d : Cls} (h : c.le d) (hd : d = .functional ∨ d = .basic) :
    c = .functional ∨ c = .basic := by
  cases c <;> cases d <;> simp_all [Cls.le, Cls.rank]

variable [IsStrictOrderedRing K]

theorem doubled_le {c d : Cls} (h : c.le d) {x y : K} (hxy : x ≤ y) (hy : 0 ≤ y) : doubled c x ≤ doubled d y := by
  unfold doubled
  cases hc : c.strong with
  | true =>
    rw [Cls.strong_mono h hc]
    simp only [if_true]
    linarith
  | false =>
    cases d.strong with
    | true => simp only [if_true, Bool.false_eq_true, if_false]; linarith
    | false => simp only [Bool.false_eq_true, if_false]; exact hxy

theorem doubled_ge {c : Cls} {x : K} (hx : 0 ≤ x) : x ≤ doubled c x := by
  unfold doubled
  split <;> linarith

theorem lookupLe_ge {t : Table K} {m x v : K} (h : AtLeast m t) (hv : lookupLe t x = some v) : m ≤ v := by
  obtain ⟨r, hr, rfl, -⟩ := lookupLe_mem hv
  exact h r hr

theorem lookupLt_ge {t : Table K} {m x v : K} (h : AtLeast m t) (hv : lookupLt t x = some v) : m ≤ v := by
  obtain ⟨r, hr, rfl, -⟩ := lookupLt_mem hv
  exact h r hr

theorem pdFactor_le {p q : Pd} (h : p.rank ≤ q.rank) : (pdFactor p : K) ≤ pdFactor q := by
  cases p <;> cases q <;> simp_all [Pd.rank, pdFactor] <;> norm_num

theorem pdFactor_ge (p : Pd) : (1 : K) ≤ pdFactor p := by
  cases p <;> simp [pdFactor] <;> norm_num

theorem pdFactor11_le {p q : Pd} (h : p.rank ≤ q.rank) : (pdFactor11 p : K) ≤ pdFactor11 q := by
  cases p <;> cases q <;> simp_all [Pd.rank, pdFactor11] <;> norm_num

theorem pdFactor11_pos (p : Pd) : (0 : K) ≤ pdFactor11 p := by
  cases p <;> simp [pdFactor11] <;> norm_num

/-! ## IEC 60664 -/

section
variable {P : Phys K} {T : T60664 K} {i j : Query K}

theorem impulse_eq (T : T60664 K) (o : Ovc) (v : K) (c : Cls) :
    impulse664 T o v c = .ofOption (lookupLe (f1Rows T o c.strong) v) := rfl

theorem impulse_le (hT : Sound664 T) (h : Harsher i j) :
    (impulse664 T i.ovc i.vrms i.cls).Le (impulse664 T j.ovc j.vrms j.cls) := by
  rw [impulse_eq, impulse_eq]
  exact lookup_le (hT.f1 _ _) (hT.f1_le _ _ _ _ h.ovc (Cls.strong_mono h.cls)) h.vrms

theorem steady_le (h : Harsher i j) (hj : 0 ≤ j.vpeak) : steady664 i ≤ steady664 j := by
  unfold steady664
  cases hc : i.cls.strong with
  | true =>
    rw [Cls.strong_mono h.cls hc]
    simp only [if_true]
    have := h.vpeak
    linarith
  | false =>
    have := h.vpeak
    cases j.cls.strong with
    | true => simp only [if_true, Bool.false_eq_true, if_false]; linarith
    | false => simp only [Bool.false_eq_true, if_false]; exact this

/-- The correction for the homogeneous field never applies: the clearance enters the critical frequency in metres. -/
theorem over30k_eq (hP : P.Lawful) {peak freq c : K} (hf : lineFrequency < freq) (hc : 1 / 10 ^ 6 ≤ c) :
    over30k664 P T peak freq c =
      if P.skin freq ≥ c * (2 / 10) then .ok c else .ofVal (interp T.p4t1 peak) := by
  unfold over30k664
  have hf0 : (0 : K) < freq := lt_trans (by unfold lineFrequency; norm_num) hf
  obtain ⟨h0, h1⟩ := hP.skin freq hf0
  have hc0 : 0 < c := lt_of_lt_of_le (by norm_num) hc
  split
  · rename_i hs
    have hs2 : (c * (2 / 10)) ^ 2 ≤ P.skin freq ^ 2 := by
      apply pow_le_pow_left₀ _ hs
      positivity
    have h2 : c ^ 2 * freq ≤ 1 / 8 := by nlinarith [mul_le_mul_of_nonneg_right hs2 hf0.le]
    have h3 : freq * c < 200000 := by
      have : freq * c * (1 / 10 ^ 6) ≤ freq * c * c := mul_le_mul_of_nonneg_left hc (by positivity)
      nlinarith
    have : freq / 10 ^ 6 < 2 / 10 / c := by
      rw [div_lt_div_iff₀ (by norm_num) hc0]
      linarith
    rw [if_pos this]
  · rfl

theorem steadyWound_le (hP : P.Lawful) (hT : Sound664 T) (hf : i.freq = j.freq) {v w : K} (hvw : v ≤ w) :
    (steadyWound P T i v).Le (steadyWound P T j w) := by
  intro x y hx hy
  unfold steadyWound at hx hy
  rw [Out.bind_eq_ok] at hx hy
  obtain ⟨c, hc, hx⟩ := hx
  obtain ⟨d, hd, hy⟩ := hy
  rw [Out.ofOption_eq_ok] at hc hd
  rw [hf] at hx
  have hcd := lookupLe_mono hT.f8 hvw hc hd
  by_cases hfr : j.freq > lineFrequency
  · rw [if_pos hfr, over30k_eq hP hfr (lookupLe_ge hT.f8_ge hc)] at hx
    rw [if_pos hfr, over30k_eq hP hfr (lookupLe_ge hT.f8_ge hd)] at hy
    by_cases h1 : P.skin j.freq ≥ c * (2 / 10)
    · rw [if_pos h1] at hx
      cases hx
      by_cases h2 : P.skin j.freq ≥ d * (2 / 10)
      · rw [if_pos h2] at hy
        cases hy
        exact hcd
      · rw [if_neg h2] at hy
        obtain ⟨b, r, a, e, hb, hr, rfl⟩ := ((lookupLe_spec T.f8 v).1 x).mp hc
        have hrm : r ∈ T.f8 := by rw [e]; simp
        have hwr : r.1 ≤ w := by
          by_contra hn
          have hn := (not_le.mp hn).le
          have : lookupLe T.f8 w = some r.2 := by
            refine ((lookupLe_spec T.f8 w).1 r.2).mpr ⟨b, r, a, e, fun q hq => ?_, hn, rfl⟩
            intro hq'
            exact hb q hq (le_trans hvw hq')
          rw [this] at hd
          cases hd
          exact h2 h1
        obtain ⟨z, hz⟩ := interp_total hT.p4t1.1 hT.p4t1.2 r.1
        rw [Out.ofVal_eq_ok] at hy
        exact le_trans (hT.p4t1_f8 r hrm z hz) (interp_mono hT.p4t1.1 hT.p4t1.2 hwr hz hy)
    · have h2 : ¬ P.skin j.freq ≥ d * (2 / 10) := fun h => h1 (by linarith)
      rw [if_neg h1] at hx
      rw [if_neg h2] at hy
      exact interp_le hT.p4t1 (Below.refl _) hvw _ _ hx hy
  · rw [if_neg hfr] at hx hy
    cases hx; cases hy
    exact hcd

theorem inside_down {t : Table K} {x y : K} (hxy : x ≤ y) (h : inside t y = true) : inside t x = true := by
  simp only [inside, List.any_eq_true, decide_eq_true_eq] at h ⊢
  obtain ⟨r, hr, h⟩ := h
  exact ⟨r, hr, lt_of_le_of_lt hxy h⟩

theorem inside_up {t : Table K} {x y : K} (hxy : x ≤ y) (h : inside t x = false) : inside t y = false := by
  cases hy : inside t y with
  | false => rfl
  | true => rw [inside_down hxy hy] at h; simp at h

theorem steadyWound_over (hP : P.Lawful) (hT : Sound664 T) {t : Table K} (ht : HandsOver T t) {x y v w : K}
    (hx : inside t x = true) (hy : inside t y = false) (hv : interp t x = .ok v)
    (hw : steadyWound P T j y = .ok w) : v ≤ w := by
  unfold steadyWound at hw
  rw [Out.bind_eq_ok] at hw
  obtain ⟨d, hd, hw⟩ := hw
  rw [Out.ofOption_eq_ok] at hd
  have h8 := ht.f8 x y v d hx hy hv hd
  by_cases hfr : j.freq > lineFrequency
  · rw [if_pos hfr, over30k_eq hP hfr (lookupLe_ge hT.f8_ge hd)] at hw
    split at hw
    · cases hw; exact h8
    · rw [Out.ofVal_eq_ok] at hw
      exact ht.p4t1 x y v w hx hy hv hw
  · rw [if_neg hfr] at hw
    cases hw; exact h8

theorem planar_cases (T : T60664 K) {a b : K} (h : a ≤ b) :
    planarTable T a = planarTable T b ∨ (planarTable T a = T.p5t2 ∧ planarTable T b = T.p5t3) := by
  unfold planarTable
  by_cases h1 : b ≤ altitudeLimit
  · rw [if_pos h1, if_pos (le_trans h h1)]; exact Or.inl rfl
  · rw [if_neg h1]
    by_cases h2 : a ≤ altitudeLimit
    · rw [if_pos h2]; exact Or.inr ⟨rfl, rfl⟩
    · rw [if_neg h2]; exact Or.inl rfl

theorem planar_sound (hT : Sound664 T) (a : K) : Rows (planarTable T a) ∧ HandsOver T (planarTable T a) := by
  unfold planarTable
  split
  · exact ⟨hT.p5t2, hT.p5t2_over⟩
  · exact ⟨hT.p5t3, hT.p5t3_over⟩

theorem planar_inside (hT : Sound664 T) (a b x : K) : inside (planarTable T a) x = inside (planarTable T b) x := by
  unfold planarTable
  split <;> split <;> simp [hT.p5_inside]

/-- The transient and the steady-state clearance together. -/
theorem both_le (hP : P.Lawful) (hT : Sound664 T) (h : Harsher i j) (hj : 0 ≤ j.vpeak) {a b : K}
    (ha : impulse664 T i.ovc i.vrms i.cls = .ok a) (hb : impulse664 T j.ovc j.vrms j.cls = .ok b) :
    ((transientClearance T i a).max2 (steadyClearance P T i (steady664 i))).Le
      ((transientClearance T j b).max2 (steadyClearance P T j (steady664 j))) := by
  have hab := impulse_le hT h a b ha hb
  have hs := steady_le h hj
  have hf2 : (Out.ofOption (lookupLe (T.f2 i.pd) a)).Le (.ofOption (lookupLe (T.f2 j.pd) b)) :=
    lookup_le (hT.f2 _).1 (hT.f2_le _ _ h.pd) hab
  have hw := steadyWound_le (i := i) (j := j) hP hT h.freq hs
  unfold transientClearance steadyClearance
  rw [h.wiring]
  by_cases hwi : j.wiring = some Wiring.printed
  · simp only [if_pos hwi]
    intro x y hx hy
    rw [Out.max2_eq_ok] at hx hy
    obtain ⟨ti, si, hti, hsi, rfl⟩ := hx
    obtain ⟨tj, sj, htj, hsj, rfl⟩ := hy
    obtain ⟨x₀, hx₀, hle⟩ := hT.p5_le
    obtain ⟨rb, hrb, hrb2, -⟩ : ∃ r ∈ f1Rows T j.ovc j.cls.strong, r.2 = b ∧ j.vrms ≤ r.1 := by
      rw [impulse_eq, Out.ofOption_eq_ok] at hb
      exact lookupLe_mem hb
    have hbx : x₀ ≤ b := by
      rw [impulse_eq, Out.ofOption_eq_ok] at hb
      exact lookupLe_ge (hx₀ _ _) hb
    obtain ⟨hri, hoi⟩ := planar_sound hT i.altitude
    obtain ⟨hrj, hoj⟩ := planar_sound hT j.altitude
    -- the planar tables compare from the smallest impulse voltage on
    have hcmp : ∀ x, x₀ ≤ x → ∀ v w, interp (planarTable T i.altitude) x = .ok v →
        interp (planarTable T j.altitude) x = .ok w → v ≤ w := by
      intro x hx v w hv hw'
      rcases planar_cases T h.altitude with e | ⟨e1, e2⟩
      · rw [e] at hv
        exact Below.refl _ x v w hv hw'
      · rw [e1] at hv
        rw [e2] at hw'
        exact hle x hx v w hv hw'
    have hin := planar_inside hT i.altitude j.altitude
    -- a value of the planar table at or below the impulse voltage
    have htr : ∀ x v, x ≤ b → inside (planarTable T i.altitude) x = true →
        interp (planarTable T i.altitude) x = .ok v → v ≤ tj := by
      intro x v hxb hix hv
      unfold planarOr at htj
      split at htj
      · rw [Out.ofVal_eq_ok] at htj
        obtain ⟨z, hz⟩ := interp_total hri.1 hri.2 b
        exact le_trans (interp_mono hri.1 hri.2 hxb hv hz) (hcmp b hbx z tj hz htj)
      · rename_i hib
        rw [Out.ofOption_eq_ok] at htj
        have hib' : inside (planarTable T i.altitude) b = false := by rw [hin]; simpa using hib
        subst hrb2
        exact hoi.f2 _ _ rb hrb _ x v tj hix hib' hv htj
    apply max_le
    · apply le_trans _ (le_max_left _ _)
      unfold planarOr at hti
      split at hti
      · rename_i hia
        rw [Out.ofVal_eq_ok] at hti
        exact htr a ti hab hia hti
      · rename_i hia
        have hib : inside (planarTable T j.altitude) b = false := by
          rw [← hin]; exact inside_up hab (by simpa using hia)
        unfold planarOr at htj
        rw [hib] at htj
        exact hf2 _ _ hti (by simpa using htj)
    · unfold planarOr at hsi
      split at hsi
      · rename_i his
        rw [Out.ofVal_eq_ok] at hsi
        unfold planarOr at hsj
        split at hsj
        · rw [Out.ofVal_eq_ok] at hsj
          by_cases hx : x₀ ≤ steady664 j
          · apply le_trans _ (le_max_right _ _)
            obtain ⟨z, hz⟩ := interp_total hri.1 hri.2 (steady664 j)
            exact le_trans (interp_mono hri.1 hri.2 hs hsi hz) (hcmp _ hx z sj hz hsj)
          · apply le_trans _ (le_max_left _ _)
            exact htr _ _ (le_trans hs (le_trans (not_le.mp hx).le hbx)) his hsi
        · rename_i hjs
          apply le_trans _ (le_max_right _ _)
          have : inside (planarTable T i.altitude) (steady664 j) = false := by rw [hin]; simpa using hjs
          exact steadyWound_over hP hT hoi his this hsi hsj
      · rename_i his
        apply le_trans _ (le_max_right _ _)
        have : inside (planarTable T j.altitude) (steady664 j) = false := by
          rw [← hin]; exact inside_up hs (by simpa using his)
        unfold planarOr at hsj
        rw [this] at hsj
        exact hw _ _ hsi (by simpa using hsj)
  · simp only [if_neg hwi]
    exact Out.Le.max2 hf2 hw

theorem planarOr_ge {t : Table K} {m x v : K} {o : Out K} (ht : Rows t) (h1 : AtLeast m t)
    (h2 : ∀ w, o = .ok w → m ≤ w) (h : planarOr t x o = .ok v) : m ≤ v := by
  unfold planarOr at h
  split at h
  · rw [Out.ofVal_eq_ok] at h
    exact interp_ge_of_rows ht h1 h
  · exact h2 v h

theorem transient_nonneg (hT : Sound664 T) {a v : K} (h : transientClearance T i a = .ok v) : 0 ≤ v := by
  unfold transientClearance at h
  have hf2 : ∀ w, Out.ofOption (lookupLe (T.f2 i.pd) a) = .ok w → 0 ≤ w := by
    intro w hw
    rw [Out.ofOption_eq_ok] at hw
    exact lookupLe_ge (hT.f2 _).2 hw
  split at h
  · refine planarOr_ge (planar_sound hT i.altitude).1 ?_ hf2 h
    unfold planarTable
    split
    · exact hT.p5_nonneg.1
    · exact hT.p5_nonneg.2
  · exact hf2 v h

theorem altitude_le (hT : Sound664 T) (h : i.altitude ≤ j.altitude) {x y : K} (hxy : x ≤ y) (hy : 0 ≤ y) :
    (altitude664 T i.altitude x).Le (altitude664 T j.altitude y) := by
  unfold altitude664
  by_cases h1 : i.altitude > altitudeLimit
  · rw [if_pos h1, if_pos (lt_of_lt_of_le h1 h)]
    apply Out.Le.bind
    intro f g hf hg
    have hfg := interp_le hT.a2 (Below.refl _) h f g hf hg
    rw [Out.ofVal_eq_ok] at hf
    have hf1 := interp_ge_of_rows hT.a2 hT.a2_ge hf
    exact Out.Le.ok (mul_le_mul hxy hfg (le_trans zero_le_one hf1) hy)
  · rw [if_neg h1]
    split
    · intro v w hv hw
      cases hv
      rw [Out.bind_eq_ok] at hw
      obtain ⟨g, hg, hw⟩ := hw
      cases hw
      rw [Out.ofVal_eq_ok] at hg
      have hg1 := interp_ge_of_rows hT.a2 hT.a2_ge hg
      nlinarith
    · exact Out.Le.ok hxy

theorem clearance664_le (hP : P.Lawful) (hT : Sound664 T) (h : Harsher i j) (hj : 0 ≤ j.vpeak) :
    (clearance664 P T i).Le (clearance664 P T j) := by
  unfold clearance664
  apply Out.Le.bind
  intro a b ha hb
  apply Out.Le.bind
  intro x y hx hy
  refine altitude_le hT h.altitude (both_le hP hT h hj ha hb x y hx hy) ?_
  rw [Out.max2_eq_ok] at hy
  obtain ⟨t, s, ht, -, rfl⟩ := hy
  exact le_trans (transient_nonneg hT ht) (le_max_left _ _)

theorem altitude_ge (hT : Sound664 T) {a x v : K} (hx : 0 ≤ x) (h : altitude664 T a x = .ok v) : x ≤ v := by
  unfold altitude664 at h
  split at h
  · rw [Out.bind_eq_ok] at h
    obtain ⟨g, hg, h⟩ := h
    cases h
    rw [Out.ofVal_eq_ok] at hg
    have hg1 := interp_ge_of_rows hT.a2 hT.a2_ge hg
    nlinarith
  · cases h; exact le_refl _

theorem clearance664_nonneg (hT : Sound664 T) {v : K} (h : clearance664 P T i = .ok v) : 0 ≤ v := by
  unfold clearance664 at h
  rw [Out.bind_eq_ok] at h
  obtain ⟨a, -, h⟩ := h
  rw [Out.bind_eq_ok] at h
  obtain ⟨x, hx, h⟩ := h
  rw [Out.max2_eq_ok] at hx
  obtain ⟨t, s, ht, -, rfl⟩ := hx
  have h0 := le_trans (transient_nonneg hT ht) (le_max_left t s)
  exact le_trans h0 (altitude_ge hT h0 h)

theorem freqBelow_refl {t : FreqTable K} (h : ∀ r ∈ t, Rows r.2) : FreqBelow t t := by
  induction t with
  | nil => exact List.Forall₂.nil
  | cons a l ih =>
    exact List.Forall₂.cons ⟨rfl, h a (by simp), h a (by simp), Below.refl _⟩
      (ih fun r hr => h r (List.mem_cons_of_mem _ hr))

theorem creepageF5_le (hT : Sound664 T) (h : Harsher i j) {v w : K} (hvw : v ≤ w) :
    (creepageF5 T i.pd i.cti v).Le (creepageF5 T j.pd j.cti w) := by
  unfold creepageF5
  cases hi : T.f5 i.pd i.cti with
  | none => exact Out.threw_le _
  | some t =>
    cases hj : T.f5 j.pd j.cti with
    | none => exact Out.le_threw _
    | some u => exact lookupLt_le (hT.f5 _ _ _ hj).1 (hT.f5_le _ _ _ _ _ _ h.pd h.cti hi hj) hvw

theorem creepageF5_nonneg (hT : Sound664 T) {p : Pd} {c : Cti} {v x : K} (h : creepageF5 T p c v = .ok x) : 0 ≤ x := by
  unfold creepageF5 at h
  cases ht : T.f5 p c with
  | none => rw [ht] at h; simp at h
  | some t =>
    rw [ht] at h
    simp only [Out.ofOption_eq_ok] at h
    exact lookupLt_ge (hT.f5 _ _ _ ht).2 h

theorem creepageWound_le (hT : Sound664 T) (h : Harsher i j) {v w : K} (hvw : v ≤ w) :
    (creepageWound T i v).Le (creepageWound T j w) := by
  have h5 := creepageF5_le hT h hvw
  unfold creepageWound
  rw [h.freq]
  split
  · apply Out.Le.max2 h5
    apply Out.Le.bind
    intro x y hx hy
    apply Out.Le.ok
    have hxy := overFreq_le (freqBelow_refl fun r hr => (hT.p4t2.1 r hr).1) hT.p4t2.2 h.vpeak x y hx hy
    have hy0 := overFreq_ge hT.p4t2.1 hT.p4t2.2 hy
    exact mul_le_mul hxy (pdFactor_le h.pd) (le_trans zero_le_one (pdFactor_ge _)) hy0
  · exact h5

/-- The wound creepage distance is at least the value of F.5. -/
theorem creepageWound_ge {v x : K} (h : creepageWound T j v = .ok x) :
    ∃ y, creepageF5 T j.pd j.cti v = .ok y ∧ y ≤ x := by
  unfold creepageWound at h
  split at h
  · rw [Out.max2_eq_ok] at h
    obtain ⟨a, b, ha, -, rfl⟩ := h
    exact ⟨a, ha, le_max_left _ _⟩
  · exact ⟨x, h, le_refl _⟩

theorem creepageBase_le (hT : Sound664 T) (h : Harsher i j) {v w : K} (hvw : v ≤ w) :
    (creepageBase664 T i v).Le (creepageBase664 T j w) := by
  have hw := creepageWound_le hT h hvw
  unfold creepageBase664
  rw [h.wiring]
  split
  · cases hi : T.p5t4 i.pd i.cti with
    | none => exact Out.threw_le _
    | some t =>
      cases hj : T.p5t4 j.pd j.cti with
      | none => exact Out.le_threw _
      | some u =>
        simp only
        obtain ⟨hb, hin, hover⟩ := hT.p5t4_le _ _ _ _ _ _ h.pd h.cti hi hj
        have hrt := (hT.p5t4 _ _ _ hi).1
        intro x y hx hy
        unfold planarOr at hx hy
        cases hiv : inside t v with
        | true =>
          rw [hiv] at hx
          simp only [if_true] at hx
          cases hjw : inside u w with
          | true =>
            rw [hjw] at hy
            exact interp_le hrt hb hvw x y hx hy
          | false =>
            rw [hjw] at hy
            obtain ⟨z, hz, hzy⟩ := creepageWound_ge (by simpa using hy)
            unfold creepageF5 at hz
            cases hf : T.f5 j.pd j.cti with
            | none => rw [hf] at hz; simp at hz
            | some s =>
              rw [hf] at hz
              simp only [Out.ofOption_eq_ok] at hz
              rw [Out.ofVal_eq_ok] at hx
              exact le_trans (hover s v w x z hf hiv hjw hvw hx hz) hzy
        | false =>
          have hjw : inside u w = false := by
            cases hjw : inside u w with
            | false => rfl
            | true => rw [inside_down hvw (hin w hjw)] at hiv; simp at hiv
          rw [hiv] at hx
          rw [hjw] at hy
          exact hw x y (by simpa using hx) (by simpa using hy)
  · exact hw

theorem creepageWound_nonneg (hT : Sound664 T) {v x : K} (h : creepageWound T j v = .ok x) : 0 ≤ x := by
  obtain ⟨y, hy, hyx⟩ := creepageWound_ge h
  exact le_trans (creepageF5_nonneg hT hy) hyx

theorem creepageBase_nonneg (hT : Sound664 T) {v x : K} (h : creepageBase664 T j v = .ok x) : 0 ≤ x := by
  unfold creepageBase664 at h
  split at h
  · cases hj : T.p5t4 j.pd j.cti with
    | none => rw [hj] at h; simp at h
    | some u =>
      rw [hj] at h
      exact planarOr_ge (hT.p5t4 _ _ _ hj).1 (hT.p5t4 _ _ _ hj).2 (fun w hw => creepageWound_nonneg hT hw) h
  · exact creepageWound_nonneg hT h

theorem creepageRaw664_le (hT : Sound664 T) (h : Harsher i j) : (creepageRaw664 T i).Le (creepageRaw664 T j) := by
  unfold creepageRaw664
  apply Out.Le.bind
  intro r s hr hs
  have hrs : r ≤ s := by
    rw [Out.ofOption_eq_ok] at hr hs
    exact lookupLt_mono hT.f3 h.main hr hs
  apply Out.Le.bind
  intro x y hx hy
  exact Out.Le.ok (doubled_le h.cls (creepageBase_le hT h (max_le_max h.vrms hrs) x y hx hy) (creepageBase_nonneg hT hy))

theorem creepageRaw664_nonneg (hT : Sound664 T) {x : K} (h : creepageRaw664 T j = .ok x) : 0 ≤ x := by
  unfold creepageRaw664 at h
  rw [Out.bind_eq_ok] at h
  obtain ⟨r, -, h⟩ := h
  rw [Out.bind_eq_ok] at h
  obtain ⟨y, hy, h⟩ := h
  cases h
  exact le_trans (creepageBase_nonneg hT hy) (doubled_ge (creepageBase_nonneg hT hy))

variable [FloorRing K]

theorem creepage664_eq_ok {inc : Bool} {x : K} (h : creepage664 P T i inc = .ok x) :
    ∃ c skip, creepageRaw664 T i = .ok c ∧ maySkipClearance T i c = some skip ∧
      ((skip = true ∨ inc = false) ∧ x = roundFloat c 5 ∨
        skip = false ∧ inc = true ∧ ∃ cl, clearance664 P T i = .ok cl ∧ x = roundFloat (max c cl) 5) := by
  unfold creepage664 at h
  rw [Out.bind_eq_ok] at h
  obtain ⟨c, hc, h⟩ := h
  refine ⟨c, ?_⟩
  cases hm : maySkipClearance T i c with
  | none => rw [hm] at h; simp at h
  | some skip =>
    rw [hm] at h
    refine ⟨skip, hc, rfl, ?_⟩
    cases skip <;> cases inc <;> simp at h ⊢
    · exact h.symm
    · rw [Out.bind_eq_ok] at h
      obtain ⟨cl, hcl, h⟩ := h
      exact ⟨cl, hcl, (Out.ok.inj h).symm⟩
    · exact h.symm
    · exact h.symm

theorem creepage664_le_false (hT : Sound664 T) (h : Harsher i j) :
    (creepage664 P T i false).Le (creepage664 P T j false) := by
  intro x y hx hy
  obtain ⟨c, s, hc, -, hx⟩ := creepage664_eq_ok hx
  obtain ⟨d, s', hd, -, hy⟩ := creepage664_eq_ok hy
  simp only [or_true, true_and, Bool.false_eq_true, and_false, false_and, or_false] at hx hy
  rw [hx, hy]
  exact roundFloat_mono (creepageRaw664_le hT h c d hc hd) 5

end

/-! ## IEC 62368 -/

section
variable {T : T62368 K} {i j : Query K} [FloorRing K]

theorem bool_cases {f : Bool → Table K} {b b' : Bool} (h : Below (f false) (f true)) (hb : b = true → b' = true) :
    Below (f b) (f b') := by
  cases b <;> cases b'
  · exact Below.refl _
  · exact h
  · simp at hb
  · exact Below.refl _

theorem bool_cases_step {f : Bool → Table K} {b b' : Bool} (h : StepBelow (f false) (f true))
    (hb : b = true → b' = true) : StepBelow (f b) (f b') := by
  cases b <;> cases b'
  · exact StepBelow.refl _
  · exact h
  · simp at hb
  · exact StepBelow.refl _

theorem distanceG13_le (hT : Sound623 T) (h : Harsher i j) :
    (distanceG13 T i.cls i.vpeak).Le (distanceG13 T j.cls j.vpeak) := by
  unfold distanceG13
  apply Out.Le.bind
  intro x y hx hy
  exact Out.Le.ok (ceilFloat_mono
    (interp_le (hT.g13 _) (bool_cases hT.g13_le (Cls.strong_mono h.cls)) h.vpeak x y hx hy) 4)

theorem clearanceTable_le {t u : Table K} (ht : Rows t) (h : Below t u) {x y : K} (hxy : x ≤ y) :
    (clearanceTable t x).Le (clearanceTable u y) := by
  unfold clearanceTable
  apply Out.Le.bind
  intro v w hv hw
  exact Out.Le.ok (ceilClearance_mono (interp_le ht h hxy v w hv hw))

theorem clearanceTable_nonneg {t : Table K} (ht : Rows t) (h : AtLeast 0 t) {x v : K}
    (hv : clearanceTable t x = .ok v) : 0 ≤ v := by
  unfold clearanceTable at hv
  rw [Out.bind_eq_ok] at hv
  obtain ⟨y, hy, hv⟩ := hv
  cases hv
  rw [Out.ofVal_eq_ok] at hy
  exact le_trans (interp_ge_of_rows ht h hy) (ceilClearance_ge y)

theorem temporary_mono {x y : K} (h : x ≤ y) : (temporary623 x : K) ≤ temporary623 y := by
  unfold temporary623
  split <;> split
  · exact max_le_max (le_refl _) (by linarith)
  · exact max_le_max (by norm_num) (by linarith)
  · rename_i h1 h2; exact absurd (le_trans h h2) h1
  · exact max_le_max (le_refl _) (by linarith)

theorem clearance11_le (hT : Sound623 T) (h : Harsher i j) :
    (clearance11 T i.cls i.pd i.vpeak).Le (clearance11 T j.cls j.pd j.vpeak) := by
  unfold clearance11
  apply Out.Le.bind
  intro x y hx hy
  have hxy := interp_le (hT.t11 _).1 (bool_cases hT.t11_le (Cls.strong_mono h.cls)) h.vpeak x y hx hy
  rw [Out.ofVal_eq_ok] at hy
  have hy0 := interp_ge_of_rows (hT.t11 _).1 (hT.t11 _).2 hy
  exact Out.Le.ok (ceilClearance_mono (mul_le_mul hxy (pdFactor11_le h.pd) (pdFactor11_pos _) hy0))

theorem altitudeFactor_le (hT : Sound623 T) {a b : K} (h : a ≤ b) :
    (altitudeFactor623 T a).Le (altitudeFactor623 T b) := by
  unfold altitudeFactor623
  apply Out.Le.bind
  intro x y hx hy
  exact Out.Le.ok (ceilFloat_mono (max_le_max (le_refl _) (interp_le hT.t16 (Below.refl _) h x y hx hy)) 5)

theorem altitudeFactor_ge {a x : K} (h : altitudeFactor623 T a = .ok x) : 1 ≤ x := by
  unfold altitudeFactor623 at h
  rw [Out.bind_eq_ok] at h
  obtain ⟨y, -, h⟩ := h
  cases h
  exact le_trans (le_max_left 1 y) (ceilFloat_ge _ 5).1

/-- Everything the wound clearance is computed from. -/
theorem clearance623_eq_ok {x : K} (hw : i.wiring ≠ some .printed) (h : clearance623 T i = .ok x) :
    ∃ c1 m c2 f, (if i.freq ≤ lineFrequency then
        clearanceTable (T.t10 i.cls.strong i.pd) (max i.vpeak (max i.vpeak (temporary623 i.main)))
      else clearance11 T i.cls i.pd i.vpeak) = .ok c1 ∧
      lookupLe (T.t12 i.ovc) i.main = some m ∧
      clearanceTable (T.t14 i.cls.strong i.pd) (max i.vpeak m) = .ok c2 ∧
      altitudeFactor623 T i.altitude = .ok f ∧ x = ceilFloat (f * max c1 c2) 5 := by
  unfold clearance623 at h
  rw [if_neg hw, Out.bind_eq_ok] at h
  obtain ⟨c1, hc1, h⟩ := h
  rw [Out.bind_eq_ok] at h
  obtain ⟨m, hm, h⟩ := h
  rw [Out.bind_eq_ok] at h
  obtain ⟨c2, hc2, h⟩ := h
  rw [Out.bind_eq_ok] at h
  obtain ⟨f, hf, h⟩ := h
  exact ⟨c1, m, c2, f, hc1, Out.ofOption_eq_ok.mp hm, hc2, hf, (Out.ok.inj h).symm⟩

theorem clearance623_le (hT : Sound623 T) (h : Harsher i j) : (clearance623 T i).Le (clearance623 T j) := by
  by_cases hw : j.wiring = some .printed
  · unfold clearance623
    rw [if_pos hw, if_pos (h.wiring ▸ hw)]
    exact distanceG13_le hT h
  · intro x y hx hy
    obtain ⟨c1, m, c2, f, hc1, hm, hc2, hf, rfl⟩ := clearance623_eq_ok (h.wiring ▸ hw) hx
    obtain ⟨d1, n, d2, g, hd1, hn, hd2, hg, rfl⟩ := clearance623_eq_ok hw hy
    have hs := Cls.strong_mono h.cls
    have h1 : c1 ≤ d1 := by
      rw [h.freq] at hc1
      by_cases hf : j.freq ≤ lineFrequency
      · rw [if_pos hf] at hc1 hd1
        exact clearanceTable_le (hT.t10 _ _).1 (hT.t10_le _ _ _ _ hs h.pd)
          (max_le_max h.vpeak (max_le_max h.vpeak (temporary_mono h.main))) _ _ hc1 hd1
      · rw [if_neg hf] at hc1 hd1
        exact clearance11_le hT h _ _ hc1 hd1
    have hmn : m ≤ n := by
      have := lookup_le (hT.t12 _) (hT.t12_le _ _ h.ovc) h.main
      exact this m n (Out.ofOption_eq_ok.mpr hm) (Out.ofOption_eq_ok.mpr hn)
    have h2 : c2 ≤ d2 := clearanceTable_le (hT.t14 _ _).1 (hT.t14_le _ _ _ _ hs h.pd)
      (max_le_max h.vpeak hmn) _ _ hc2 hd2
    have hfg := altitudeFactor_le hT h.altitude f g hf hg
    have h0 : 0 ≤ max c1 c2 := le_trans (clearanceTable_nonneg (hT.t14 _ _).1 (hT.t14 _ _).2 hc2) (le_max_right _ _)
    exact ceilFloat_mono (mul_le_mul hfg (max_le_max h1 h2) h0 (le_trans zero_le_one (altitudeFactor_ge hg))) 5

theorem creepage17_le (hT : Sound623 T) (hp : i.pd.rank ≤ j.pd.rank) (hc : i.cti.rank ≤ j.cti.rank)
    (hs : i.cls.le j.cls) (hv : i.vrms ≤ j.vrms) : (creepage17 T i).Le (creepage17 T j) := by
  unfold creepage17
  apply Out.Le.bind
  intro x y hx hy
  have hxy := interp_le (hT.t17 _ _).1 (hT.t17_le _ _ _ _ hp hc) hv x y hx hy
  rw [Out.ofVal_eq_ok] at hy
  exact Out.Le.ok (ceilFloat_mono (doubled_le hs hxy (interp_ge_of_rows (hT.t17 _ _).1 (hT.t17 _ _).2 hy)) 4)

theorem loop18_nonneg {t : FreqTable K} (h : Chain18 t) (h0 : ∀ r ∈ t, AtLeast 0 r.2) {x f prev v : K}
    (hv : loop18 x f prev t = .ok v) : 0 ≤ v := by
  induction t generalizing prev with
  | nil => simp [loop18] at hv
  | cons p t ih =>
    obtain ⟨p1, p2⟩ := p
    simp only [loop18] at hv
    split at hv
    · rw [Out.ofVal_eq_ok] at hv
      exact interp_ge_of_rows (h.1 (p1, p2) (by simp)) (h0 (p1, p2) (by simp)) hv
    · exact ih ⟨fun r hr => h.1 r (List.mem_cons_of_mem _ hr), (List.pairwise_cons.mp h.2).2⟩
        (fun r hr => h0 r (List.mem_cons_of_mem _ hr)) hv

theorem creepage18_le (hT : Sound623 T) (hp : i.pd.rank ≤ j.pd.rank) (hs : i.cls.le j.cls) (hv : i.vrms ≤ j.vrms)
    (hf : i.freq ≤ j.freq) (hl : lineFrequency ≤ i.freq) : (creepage18 T i).Le (creepage18 T j) := by
  unfold creepage18
  apply Out.Le.bind
  intro x y hx hy
  have hxy := loop18_le hT.t18.1 hv hf hl x y hx hy
  have hy0 := loop18_nonneg hT.t18.1 hT.t18.2 hy
  have hpj : (0 : K) ≤ pdFactor j.pd := le_trans zero_le_one (pdFactor_ge _)
  exact Out.Le.ok (ceilFloat_mono (doubled_le hs
    (mul_le_mul hxy (pdFactor_le hp) (le_trans zero_le_one (pdFactor_ge _)) hy0) (mul_nonneg hy0 hpj)) 5)

/-- The creepage distance without the clearance is monotone in the frequency too. -/
theorem creepageRaw623_le (hT : Sound623 T) (hp : i.pd.rank ≤ j.pd.rank) (hc : i.cti.rank ≤ j.cti.rank)
    (hs : i.cls.le j.cls) (hv : i.vrms ≤ j.vrms) (hf : i.freq ≤ j.freq) :
    (creepageRaw623 T i).Le (creepageRaw623 T j) := by
  have h17 := creepage17_le hT hp hc hs hv
  unfold creepageRaw623
  by_cases h1 : i.freq ≤ lineFrequency
  · rw [if_pos h1]
    split
    · exact h17
    · exact Out.Le.max2_left h17
  · rw [if_neg h1, if_neg (by intro h; exact h1 (le_trans hf h))]
    exact Out.Le.max2 h17 (creepage18_le hT hp hs hv hf (not_le.mp h1).le)

end

/-! ## IEC 61558 -/

section
variable {P : Phys K} {T6 : T60664 K} {T : T61558 K} {i j : Query K} [FloorRing K]

theorem pd615_le (h : Harsher i j) : (pd615 i).rank ≤ (pd615 j).rank := by
  unfold pd615
  rw [h.wiring]
  split
  · exact le_refl _
  · exact h.pd

theorem guardSupply_le {a b : Out K} (h : i.main ≤ j.main) (hab : a.Le b) :
    (guardSupply i a).Le (guardSupply j b) := by
  unfold guardSupply
  by_cases h1 : j.main > 1100
  · rw [if_pos h1]; exact Out.le_threw _
  · rw [if_neg h1, if_neg (by intro h2; exact h1 (lt_of_lt_of_le h2 h))]
    exact hab

theorem clearance20_nonneg (hT : Sound615 T) {o : Ovc} {p : Pd} {c : Cls} {v x : K}
    (h : clearance20 T o p c v = .ok x) : 0 ≤ x := by
  unfold clearance20 at h
  split at h
  · cases h; exact le_refl _
  · rw [Out.ofOption_eq_ok] at h
    exact lookupLe_ge (hT.t20 _ _ _).2 h

theorem clearance20_le (hT : Sound615 T) {o o' : Ovc} {p p' : Pd} {c c' : Cls} {v v' : K} (ho : o.rank ≤ o'.rank)
    (hp : p.rank ≤ p'.rank) (hc : c.le c') (hv : v ≤ v') : (clearance20 T o p c v).Le (clearance20 T o' p' c' v') := by
  intro x y hx hy
  have hy0 := clearance20_nonneg hT hy
  unfold clearance20 at hx
  split at hx
  · cases hx; exact hy0
  · rename_i h1
    push Not at h1
    unfold clearance20 at hy
    have h2 : ¬ (v' < 25 ∨ p' = .pd1 ∨ c' = .functional) := by
      rintro (h | h | h)
      · exact absurd (lt_of_le_of_lt hv h) (not_lt.mpr h1.1)
      · subst h
        apply h1.2.1
        cases p <;> simp_all [Pd.rank]
      · exact h1.2.2 (Cls.functional_of_le hc h)
    rw [if_neg h2] at hy
    exact lookup_le (hT.t20 _ _ _).1 (hT.t20_le _ _ _ _ _ _ ho hc hp h1.2.1 h1.2.2) hv x y hx hy

theorem clearanceHigh_nonneg (hT : Sound615 T) {c : Cls} {v x : K} (h : clearanceHigh615 T c v = .ok x) : 0 ≤ x := by
  unfold clearanceHigh615 at h
  split at h
  · cases h; exact le_refl _
  · rw [Out.bind_eq_ok] at h
    obtain ⟨a, ha, h⟩ := h
    rw [Out.ofOption_eq_ok] at ha
    have ha0 := lookupLe_ge (hT.t103 _).2 ha
    split at h <;> cases h
    · exact le_trans ha0 (le_max_left _ _)
    · exact ha0

/-- Monotone as long as table 104 still reaches the greater voltage. -/
theorem clearanceHigh_le (hT : Sound615 T) {c c' : Cls} {v v' : K} (hc : c.le c') (hv : v ≤ v')
    (h104 : v' < 25 ∨ ∃ z, lookupLe (T.t104 c'.strong) v' = some z) :
    (clearanceHigh615 T c v).Le (clearanceHigh615 T c' v') := by
  intro x y hx hy
  have hy0 := clearanceHigh_nonneg hT hy
  unfold clearanceHigh615 at hx
  split at hx
  · cases hx; exact hy0
  · rename_i h1
    push Not at h1
    have h2 : ¬ (v' < 25 ∨ c' = .functional) := by
      rintro (h | h)
      · exact absurd (lt_of_le_of_lt hv h) (not_lt.mpr h1.1)
      · exact h1.2 (Cls.functional_of_le hc h)
    unfold clearanceHigh615 at hy
    rw [if_neg h2] at hy
    rw [Out.bind_eq_ok] at hx hy
    obtain ⟨a, ha, hx⟩ := hx
    obtain ⟨b, hb, hy⟩ := hy
    have hs := Cls.strong_mono hc
    have hab := lookup_le (hT.t103 _).1 (bool_cases_step hT.t103_le hs) hv a b ha hb
    rcases h104 with h104 | ⟨z, hz⟩
    · exact absurd (Or.inl h104) h2
    · rw [hz] at hy
      simp only [Out.ok.injEq] at hy
      subst hy
      cases hu : lookupLe (T.t104 c.strong) v with
      | none =>
        rw [hu] at hx
        simp only [Out.ok.injEq] at hx
        subst hx
        exact le_trans hab (le_max_left _ _)
      | some u =>
        rw [hu] at hx
        simp only [Out.ok.injEq] at hx
        subst hx
        have := lookup_le (hT.t104 _) (bool_cases_step hT.t104_le hs) hv u z
          (Out.ofOption_eq_ok.mpr hu) (Out.ofOption_eq_ok.mpr hz)
        exact max_le_max hab this

theorem creepage21_nonneg (hT : Sound615 T) {x : K} (h : creepage21 T i = .ok x) : 0 ≤ x := by
  unfold creepage21 at h
  split at h
  · cases h; exact le_refl _
  · rename_i h1
    push Not at h1
    rw [Out.ofVal_eq_ok] at h
    exact interp_ge_of_rows (hT.t21 _ _ _ h1.2).1 (hT.t21 _ _ _ h1.2).2 h

theorem creepage21_le (hT : Sound615 T) (h : Harsher i j) : (creepage21 T i).Le (creepage21 T j) := by
  intro x y hx hy
  have hy0 := creepage21_nonneg hT hy
  unfold creepage21 at hx
  split at hx
  · cases hx; exact hy0
  · rename_i h1
    push Not at h1
    have h2 : ¬ (j.vrms < 25 ∨ j.cls = .functional) := by
      rintro (h' | h')
      · exact absurd (lt_of_le_of_lt h.vrms h') (not_lt.mpr h1.1)
      · exact h1.2 (Cls.functional_of_le h.cls h')
    unfold creepage21 at hy
    rw [if_neg h2] at hy
    exact interp_le (hT.t21 _ _ _ h1.2).1 (hT.t21_le _ _ _ _ _ _ h.cti h.cls (pd615_le h) h1.2) h.vrms x y hx hy

theorem freqBelow_left {t u : FreqTable K} (h : FreqBelow t u) : ∀ r ∈ t, Rows r.2 := by
  induction h with
  | nil => simp
  | cons hpq _ ih =>
    intro r hr
    rcases List.mem_cons.mp hr with rfl | hr
    · exact hpq.2.1
    · exact ih r hr

theorem creepageHigh_nonneg (hT : Sound615 T) {x : K} (h : creepageHigh615 T i = .ok x) : 0 ≤ x := by
  unfold creepageHigh615 at h
  split at h
  · cases h; exact le_refl _
  · have hr := freqBelow_left (hT.tHigh_le i.cls.strong _ (pd615 i) _ id (le_refl _))
    exact overFreq_ge (fun r hr' => ⟨hr r hr', (hT.tHigh _ _).1 r hr'⟩) (hT.tHigh _ _).2 h

theorem creepageHigh_le (hT : Sound615 T) (h : Harsher i j) : (creepageHigh615 T i).Le (creepageHigh615 T j) := by
  intro x y hx hy
  have hy0 := creepageHigh_nonneg hT hy
  unfold creepageHigh615 at hx
  split at hx
  · cases hx; exact hy0
  · rename_i h1
    push Not at h1
    have h2 : ¬ (j.vpeak < 25 ∨ j.cls = .functional) := by
      rintro (h' | h')
      · exact absurd (lt_of_le_of_lt h.vpeak h') (not_lt.mpr h1.1)
      · exact h1.2 (Cls.functional_of_le h.cls h')
    unfold creepageHigh615 at hy
    rw [if_neg h2] at hy
    rw [h.freq] at hx
    exact overFreq_le (hT.tHigh_le _ _ _ _ (Cls.strong_mono h.cls) (pd615_le h)) (hT.tHigh _ _).2 h.vpeak x y hx hy

theorem creepageRaw615_le (hT : Sound615 T) (h : Harsher i j) : (creepageRaw615 T i).Le (creepageRaw615 T j) := by
  unfold creepageRaw615
  rw [h.freq]
  split
  · exact Out.Le.max2 (creepage21_le hT h) (creepageHigh_le hT h)
  · exact creepage21_le hT h

theorem creepageRaw615_nonneg (hT : Sound615 T) {x : K} (h : creepageRaw615 T i = .ok x) : 0 ≤ x := by
  unfold creepageRaw615 at h
  split at h
  · rw [Out.max2_eq_ok] at h
    obtain ⟨a, b, ha, -, rfl⟩ := h
    exact le_trans (creepage21_nonneg hT ha) (le_max_left _ _)
  · exact creepage21_nonneg hT h

end

/-! ## IEC 60335 -/

section
variable {P : Phys K} {T6 : T60664 K} {T : T60335 K} {i j : Query K} [FloorRing K]

theorem rated603_le (h : Harsher i j) : rated603 i ≤ rated603 j := max_le_max h.main h.vrms0

theorem ovc_ne_iv {o o' : Ovc} (h : o.rank ≤ o'.rank) (h' : o' ≠ .iv) : o ≠ .iv := by
  cases o <;> cases o' <;> simp_all [Ovc.rank]

theorem clearance16_eq_ok {p : Pd} {w : Option Wiring} {c : Cls} {imp x : K}
    (h : clearance16 T p w c imp = .ok x) :
    ∃ b, lookupLe (t16Rows T c.strong) imp = some b ∧
      x = if imp ≤ (if c.strong then 500 else 800) ∧ (p = .pd1 ∨ p = .pd2) ∧ w = some .printed then 2 / 10000
        else if imp ≤ (if c.strong then 800 else 1500) ∧ p = .pd3 then 8 / 10000 else b := by
  unfold clearance16 at h
  rw [Out.bind_eq_ok] at h
  obtain ⟨b, hb, h⟩ := h
  exact ⟨b, Out.ofOption_eq_ok.mp hb, (Out.ok.inj h).symm⟩

theorem clearance16_ge (hT : Sound603 T) {p : Pd} {w : Option Wiring} {c : Cls} {imp x : K}
    (h : clearance16 T p w c imp = .ok x) : 2 / 10000 ≤ x := by
  obtain ⟨b, hb, rfl⟩ := clearance16_eq_ok h
  have hb2 := lookupLe_ge (hT.t16_ge _) hb
  by_cases h1 : imp ≤ (if c.strong then 500 else 800) ∧ (p = .pd1 ∨ p = .pd2) ∧ w = some .printed
  · rw [if_pos h1]
  · rw [if_neg h1]
    by_cases h2 : imp ≤ (if c.strong then 800 else 1500) ∧ p = .pd3
    · rw [if_pos h2]; norm_num
    · rw [if_neg h2]; exact hb2

theorem clearance16_le (hT : Sound603 T) {p q : Pd} {w : Option Wiring} {c d : Cls} {a b : K}
    (hp : p.rank ≤ q.rank) (hc : c.le d) (hab : a ≤ b) : (clearance16 T p w c a).Le (clearance16 T q w d b) := by
  intro x y hx hy
  have hy2 := clearance16_ge hT hy
  obtain ⟨m, hm, rfl⟩ := clearance16_eq_ok hx
  obtain ⟨n, hn, rfl⟩ := clearance16_eq_ok hy
  have hs := Cls.strong_mono hc
  have hmn : m ≤ n := lookup_le (hT.t16 _) (bool_cases_step hT.t16_le hs) hab m n
    (Out.ofOption_eq_ok.mpr hm) (Out.ofOption_eq_ok.mpr hn)
  have l1 : (if d.strong then (500 : K) else 800) ≤ if c.strong then 500 else 800 := by
    cases hcs : c.strong <;> cases hds : d.strong <;> simp_all <;> norm_num
  have l2 : (if d.strong then (800 : K) else 1500) ≤ if c.strong then 800 else 1500 := by
    cases hcs : c.strong <;> cases hds : d.strong <;> simp_all <;> norm_num
  by_cases h1 : a ≤ (if c.strong then 500 else 800) ∧ (p = .pd1 ∨ p = .pd2) ∧ w = some .printed
  · rw [if_pos h1]
    exact hy2
  · rw [if_neg h1]
    by_cases h2 : b ≤ (if d.strong then 500 else 800) ∧ (q = .pd1 ∨ q = .pd2) ∧ w = some .printed
    · exfalso
      apply h1
      refine ⟨le_trans hab (le_trans h2.1 l1), ?_, h2.2.2⟩
      rcases h2.2.1 with rfl | rfl <;> cases p <;> simp_all [Pd.rank]
    · rw [if_neg h2]
      by_cases h4 : a ≤ (if c.strong then 800 else 1500) ∧ p = .pd3
      · rw [if_pos h4]
        have hq : q = .pd3 := by
          obtain ⟨-, rfl⟩ := h4
          cases q <;> simp_all [Pd.rank]
        by_cases h3 : b ≤ (if d.strong then 800 else 1500) ∧ q = .pd3
        · rw [if_pos h3]
        · rw [if_neg h3]
          exact hT.t16_high _ _ _ hn (not_le.mp fun h => h3 ⟨h, hq⟩)
      · rw [if_neg h4]
        by_cases h3 : b ≤ (if d.strong then 800 else 1500) ∧ q = .pd3
        · rw [if_pos h3]
          exact hT.t16_low _ _ _ hm (le_trans hab (le_trans h3.1 l2))
        · rw [if_neg h3]
          exact hmn

theorem clearance603_eq_ok {x : K} (h : clearance603 P T6 T i = .ok x) :
    i.ovc ≠ .iv ∧ ∃ imp c, lookupLe (T.t15 i.ovc) (rated603 i) = some imp ∧
      clearance16 T i.pd i.wiring i.cls imp = .ok c ∧
      ((Uses664 i ∧ ∃ c6, clearance664 P T6 i = .ok c6 ∧ x = max c c6) ∨ (¬ Uses664 i ∧ x = c)) := by
  unfold clearance603 at h
  split at h
  · simp at h
  · rename_i hiv
    rw [Out.bind_eq_ok] at h
    obtain ⟨imp, himp, h⟩ := h
    rw [Out.bind_eq_ok] at h
    obtain ⟨c, hc, h⟩ := h
    refine ⟨hiv, imp, c, Out.ofOption_eq_ok.mp himp, hc, ?_⟩
    split at h
    · rename_i hu
      rw [Out.bind_eq_ok] at h
      obtain ⟨c6, hc6, h⟩ := h
      exact Or.inl ⟨hu, c6, hc6, (Out.ok.inj h).symm⟩
    · rename_i hu
      exact Or.inr ⟨hu, (Out.ok.inj h).symm⟩

theorem clearance603_le (hP : P.Lawful) (h6 : Sound664 T6) (hT : Sound603 T) (h : Harsher i j) (hj : 0 ≤ j.vpeak)
    (hu : Uses664 i → Uses664 j) : (clearance603 P T6 T i).Le (clearance603 P T6 T j) := by
  intro x y hx hy
  obtain ⟨hi, a, c, ha, hc, hx⟩ := clearance603_eq_ok hx
  obtain ⟨hjv, b, d, hb, hd, hy⟩ := clearance603_eq_ok hy
  have hab : a ≤ b := lookup_le (hT.t15 _) (hT.t15_le _ _ h.ovc hjv) (rated603_le h) a b
    (Out.ofOption_eq_ok.mpr ha) (Out.ofOption_eq_ok.mpr hb)
  rw [h.wiring] at hc
  have hcd := clearance16_le hT h.pd h.cls hab c d hc hd
  rcases hx with ⟨hui, c6, hc6, rfl⟩ | ⟨-, rfl⟩
  · rcases hy with ⟨-, d6, hd6, rfl⟩ | ⟨hnu, -⟩
    · exact max_le_max hcd (clearance664_le hP h6 h hj _ _ hc6 hd6)
    · exact absurd (hu hui) hnu
  · rcases hy with ⟨-, d6, hd6, rfl⟩ | ⟨-, rfl⟩
    · exact le_trans hcd (le_max_left _ _)
    · exact hcd

theorem creepageRaw603_le (h6 : Sound664 T6) (hT : Sound603 T) (h : Harsher i j) :
    (creepageRaw603 P T6 T i).Le (creepageRaw603 P T6 T j) := by
  unfold creepageRaw603
  rw [h.freq]
  by_cases hf : j.freq ≤ lineFrequency
  · rw [if_pos hf, if_pos hf]
    by_cases hj : j.cls = .functional
    · rw [if_pos hj, if_pos (Cls.functional_of_le h.cls hj)]
      exact lookup_le (hT.t18 _ _).1 (hT.t18_le _ _ _ _ h.pd h.cti) h.vpeak0
    · rw [if_neg hj]
      intro x y hx hy
      rw [Out.bind_eq_ok] at hy
      obtain ⟨w, hw, hy⟩ := hy
      have hw0 := lookupLe_ge (hT.t17 _ _).2 (Out.ofOption_eq_ok.mp hw)
      cases hy
      by_cases hi : i.cls = .functional
      · rw [if_pos hi] at hx
        exact le_trans (lookup_le (hT.t17 _ _).1 (hT.t18_t17 _ _ _ _ h.pd h.cti) h.vpeak0 x w hx hw) (doubled_ge hw0)
      · rw [if_neg hi, Out.bind_eq_ok] at hx
        obtain ⟨v, hv, hx⟩ := hx
        cases hx
        exact doubled_le h.cls (lookup_le (hT.t17 _ _).1 (hT.t17_le _ _ _ _ h.pd h.cti) h.vpeak0 v w hv hw) hw0
  · rw [if_neg hf, if_neg hf]
    exact creepage664_le_false h6 h

end

end Verif.Standards
