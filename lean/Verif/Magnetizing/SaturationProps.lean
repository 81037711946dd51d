import Verif.Magnetizing.Saturation
import Verif.Magnetizing.TurnsProps

/-! # Gaps and turns out of a saturation (C233, C234, C235) -/

set_option linter.unusedSectionVars false

namespace Verif.Magnetizing.Saturation

open Verif.Magnetizing (rootRound toInt rootRound_spec toInt_some)

variable {K : Type} [Field K] [LinearOrder K] [IsStrictOrderedRing K] [FloorRing K]

/-! ## What is asked -/

/-- A case that makes sense: everything is above zero. -/
structure Case.Sensible (c : Case K) : Prop where
  inductance : 0 < c.inductance
  peak : 0 < c.peak
  limit : 0 < c.limit
  area : 0 < c.area
  length : 0 < c.length
  columnArea : 0 < c.columnArea
  columnWidth : 0 < c.columnWidth
  permeability : 0 < c.permeability
  vacuum : 0 < c.vacuum

/-- The flux density of turns on a reluctance is no more than a limit: the flux, which is the magnetomotive force over the reluctance, fits. -/
def Fits (c : Case K) (turns reluctance limit : K) : Prop := turns * c.peak ≤ limit * c.area * reluctance

theorem fluxDensity_le (c : Case K) (h : c.Sensible) {turns reluctance limit : K} (hr : 0 < reluctance) :
    fluxDensity c turns reluctance ≤ limit ↔ Fits c turns reluctance limit := by
  have := h.area
  unfold fluxDensity Fits
  rw [div_le_iff₀ this, div_le_iff₀ hr]

theorem coreReluctance_pos (c : Case K) (h : c.Sensible) : 0 < coreReluctance c := by
  have := h.area; have := h.length; have := h.permeability; have := h.vacuum
  unfold coreReluctance; positivity

theorem initialGap_pos (c : Case K) (h : c.Sensible) : 0 < initialGap c := by
  have := h.area; have := h.inductance; have := h.peak; have := h.vacuum; have := h.limit
  unfold initialGap; positivity

theorem classic_gt (c : Case K) (h : c.Sensible) {gap : K} (_hg : 0 ≤ gap) : gap / (c.vacuum * c.columnArea) < classic c gap := by
  have := coreReluctance_pos c h
  unfold classic; linarith

theorem classic_pos (c : Case K) (h : c.Sensible) {gap : K} (hg : 0 ≤ gap) : 0 < classic c gap := by
  have := coreReluctance_pos c h
  have := h.vacuum; have := h.columnArea
  have : 0 ≤ gap / (c.vacuum * c.columnArea) := by positivity
  unfold classic; linarith

/-! ## C233: the gap from the saturation -/

/-- A gap meets the limit: with the turns that are nearest to the inductance, one at least, the flux fits. -/
def Meets (c : Case K) (gap : K) : Prop := ∃ n, turnsAt c gap = some n ∧ Fits c n (classic c gap) c.limit

/-- **C233.** The turns used in the search are those nearest to what the inductance asks for, and at least one. -/
theorem turns_at_gap (c : Case K) (h : c.Sensible) {gap : K} (hg : 0 ≤ gap) {n : ℤ} (hn : turnsAt c gap = some n) : 1 ≤ n ∧
    4 * (c.inductance * classic c gap) < (2 * (n : K) + 1) ^ 2 ∧ (2 ≤ n → (2 * (n : K) - 1) ^ 2 ≤ 4 * (c.inductance * classic c gap)) := by
  have hpos := mul_pos h.inductance (classic_pos c h hg)
  obtain ⟨h1, h2⟩ := rootRound_spec _ hpos.le
  unfold turnsAt at hn
  rw [Option.map_eq_some_iff] at hn
  obtain ⟨m, hm, rfl⟩ := hn
  have hm' := (toInt_some hm).1
  subst hm'
  generalize rootRound (c.inductance * classic c gap) = r at *
  rcases Nat.eq_zero_or_pos r with rfl | hr
  · refine ⟨by simp, ?_, fun h2 => by simp at h2⟩
    have : ((max 1 ((0 : ℕ) : ℤ) : ℤ) : K) = 1 := by norm_num
    rw [this]
    push_cast at h1
    nlinarith
  · have hmax : max 1 (r : ℤ) = (r : ℤ) := max_eq_right (by exact_mod_cast hr)
    rw [hmax]
    refine ⟨by exact_mod_cast hr, ?_, fun _ => ?_⟩
    · rw [Int.cast_natCast]; exact h1
    · rw [Int.cast_natCast]; exact h2 hr

theorem grow_spec (c : Case K) (h : c.Sensible) : ∀ (left : ℕ) (gap answer : K), 0 < gap → grow c left gap = some answer →
    ∃ k, k ≤ left ∧ answer = gap * (3 / 2) ^ k ∧ (∀ j, j < k → ¬ Meets c (gap * (3 / 2) ^ j)) ∧ (k < left → Meets c answer)
  | 0, gap, answer, _, ha => by
    simp only [grow, Option.some.injEq] at ha
    exact ⟨0, le_refl 0, by simp [ha], fun j hj => by omega, fun h => by omega⟩
  | left + 1, gap, answer, hg, ha => by
    simp only [grow] at ha
    rw [Option.bind_eq_some_iff] at ha
    obtain ⟨n, hn, ha⟩ := ha
    have hiff := fluxDensity_le c h (turns := (n : K)) (limit := c.limit) (classic_pos c h hg.le)
    by_cases hf : fluxDensity c n (classic c gap) ≤ c.limit
    · rw [if_pos hf, Option.some.injEq] at ha
      subst ha
      exact ⟨0, Nat.zero_le _, by simp, fun j hj => by omega, fun _ => ⟨n, hn, hiff.mp hf⟩⟩
    · rw [if_neg hf] at ha
      obtain ⟨k, hk, rfl, hj, hm⟩ := grow_spec c h left _ _ (by positivity) ha
      refine ⟨k + 1, by omega, by ring, fun j hj' => ?_, fun hlt => hm (by omega)⟩
      cases j with
      | zero =>
        rintro ⟨n', hn', hfit⟩
        rw [pow_zero, mul_one] at hn' hfit
        rw [hn, Option.some.injEq] at hn'
        subst hn'
        exact hf (hiff.mpr hfit)
      | succ j =>
        have := hj j (by omega)
        rwa [show gap * (3 / 2) ^ (j + 1) = gap * (3 / 2) * (3 / 2) ^ j by ring]

/-- The fifteenth gap meets the limit, if its turns are a number. -/
theorem last_meets (c : Case K) (h : c.Sensible) (harea : c.columnArea ≤ 164 * c.area)
    (hflux : c.columnArea * c.limit ≤ 291 * (c.inductance * c.peak)) {n : ℤ}
    (hn : turnsAt c (initialGap c * (3 / 2) ^ 14) = some n) : Fits c n (classic c (initialGap c * (3 / 2) ^ 14)) c.limit := by
  have hL := h.inductance; have hI := h.peak; have hB := h.limit; have hA := h.area
  have hG := h.columnArea; have hv := h.vacuum
  have hg0 := initialGap_pos c h
  have hg : (0 : K) ≤ initialGap c * (3 / 2) ^ 14 := by positivity
  obtain ⟨h1, _, h3⟩ := turns_at_gap c h hg hn
  have hgt := classic_gt c h hg
  have hval : initialGap c * (3 / 2) ^ 14 / (c.vacuum * c.columnArea) =
      c.inductance * c.peak ^ 2 * (3 / 2) ^ 14 / (c.area * c.limit ^ 2 * c.columnArea) := by
    unfold initialGap
    field_simp
  rw [hval, div_lt_iff₀ (by positivity)] at hgt
  have hRpos := classic_pos c h hg
  generalize classic c (initialGap c * (3 / 2) ^ 14) = R at *
  unfold Fits
  have hnum : (291 : K) ≤ (3 / 2) ^ 14 := by norm_num
  have hnum2 : (164 * 16 / 9 : K) ≤ (3 / 2) ^ 14 := by norm_num
  generalize ((3 : K) / 2) ^ 14 = q at *
  rcases eq_or_lt_of_le h1 with hone | htwo
  · subst hone
    push_cast
    -- `L I² q < R A B² G` and `G B ≤ 291 L I`
    by_contra hcon
    push Not at hcon
    have e1 : R * (c.area * c.limit ^ 2 * c.columnArea) = (c.limit * c.area * R) * (c.columnArea * c.limit) := by ring
    have e2 : (c.limit * c.area * R) * (c.columnArea * c.limit) ≤ (1 * c.peak) * (291 * (c.inductance * c.peak)) := by
      apply mul_le_mul hcon.le hflux (by positivity) (by positivity)
    have e3 : 291 * (c.inductance * c.peak ^ 2) ≤ c.inductance * c.peak ^ 2 * q := by
      rw [mul_comm]; gcongr
    rw [e1] at hgt
    nlinarith
  · have h2 : (2 : ℤ) ≤ n := by omega
    have h3 := h3 h2
    have h2' : (2 : K) ≤ n := by exact_mod_cast h2
    have hsq : 9 * (n : K) ^ 2 ≤ 16 * (c.inductance * R) := by nlinarith
    apply le_of_sq_le_sq _ (by positivity)
    -- `(n I)² ≤ (B A R)²`
    have e1 : 9 * ((n : K) * c.peak) ^ 2 ≤ 16 * (c.inductance * c.peak ^ 2) * R := by
      have : 9 * ((n : K) * c.peak) ^ 2 = 9 * (n : K) ^ 2 * c.peak ^ 2 := by ring
      rw [this]
      nlinarith [sq_nonneg c.peak, mul_le_mul_of_nonneg_right hsq (sq_nonneg c.peak)]
    have hLI : 0 < c.inductance * c.peak ^ 2 := by positivity
    generalize c.inductance * c.peak ^ 2 = E at *
    have e2 : E * q < R * c.limit ^ 2 * c.area * (164 * c.area) := by
      calc E * q < R * (c.area * c.limit ^ 2 * c.columnArea) := hgt
        _ = R * c.limit ^ 2 * c.area * c.columnArea := by ring
        _ ≤ R * c.limit ^ 2 * c.area * (164 * c.area) := by gcongr
    have e3 : E * (164 * 16 / 9) ≤ E * q := by gcongr
    have e4 : 16 * E ≤ 9 * (R * c.limit ^ 2 * c.area ^ 2) := by nlinarith
    have e5 : 16 * E * R ≤ 9 * (R * c.limit ^ 2 * c.area ^ 2) * R := by gcongr
    nlinarith

/-- **C233.** The gap answered is the first one that meets the limit out of the gap of the energy and what half more of it each time makes, if the first
column is not above 164 times the effective area and the flux linkage wanted not below its flux by 291 times. -/
theorem saturation_gap_partial (c : Case K) (h : c.Sensible) (harea : c.columnArea ≤ 164 * c.area)
    (hflux : c.columnArea * c.limit ≤ 291 * (c.inductance * c.peak)) {gap : K} (hgap : gapFromSaturation c = some gap) :
    Meets c gap ∧ ∃ k, k < 15 ∧ gap = initialGap c * (3 / 2) ^ k ∧ ∀ j, j < k → ¬ Meets c (initialGap c * (3 / 2) ^ j) := by
  have hgrow : ∀ (left : ℕ) (g : K) (k : ℕ), 0 < g → k < left → grow c left g = some gap →
      (∀ j, j < k → ¬ Meets c (g * (3 / 2) ^ j)) → ∃ n, turnsAt c (g * (3 / 2) ^ k) = some n := by
    intro left
    induction left with
    | zero => intro g k _ hk; omega
    | succ left ih =>
      intro g k hg hk hgr hj
      simp only [grow] at hgr
      rw [Option.bind_eq_some_iff] at hgr
      obtain ⟨n, hn, hgr⟩ := hgr
      cases k with
      | zero => exact ⟨n, by simpa using hn⟩
      | succ k =>
        have hnm := hj 0 (by omega)
        rw [pow_zero, mul_one] at hnm
        have hiff := fluxDensity_le c h (turns := (n : K)) (limit := c.limit) (classic_pos c h hg.le)
        rw [if_neg (fun hf => hnm ⟨n, hn, hiff.mp hf⟩)] at hgr
        obtain ⟨m, hm⟩ := ih (g * (3 / 2)) k (by positivity) (by omega) hgr (fun j hj' => by
          have := hj (j + 1) (by omega)
          rwa [show g * (3 / 2) ^ (j + 1) = g * (3 / 2) * (3 / 2) ^ j by ring] at this)
        exact ⟨m, by rw [← hm]; congr 1; ring⟩
  obtain ⟨k, hk, rfl, hj, hm⟩ := grow_spec c h 15 _ _ (initialGap_pos c h) hgap
  rcases Nat.lt_or_ge k 15 with hlt | hge
  · exact ⟨hm hlt, k, hlt, rfl, hj⟩
  · exfalso
    have hk15 : k = 15 := by omega
    subst hk15
    obtain ⟨n, hn⟩ := hgrow 15 (initialGap c) 14 (initialGap_pos c h) (by omega) hgap (fun j hj' => hj j (by omega))
    exact hj 14 (by omega) ⟨n, hn, last_meets c h harea hflux hn⟩

/-- A core of one square centimetre, 0.3 T. -/
def sample (inductance peak : ℚ) : Case ℚ := ⟨inductance, peak, 3 / 10, 1 / 10000, 1 / 10, 1 / 10000, 1 / 100, 2000, 1256637 / 1000000000000⟩

/-- Case of `saturation_gap_partial`. -/
example : (sample (1 / 10000) 10).columnArea ≤ 164 * (sample (1 / 10000) 10).area ∧
    (sample (1 / 10000) 10).columnArea * (sample (1 / 10000) 10).limit ≤ 291 * ((sample (1 / 10000) 10).inductance * (sample (1 / 10000) 10).peak) ∧
    gapFromSaturation (sample (1 / 10000) 10) = some (initialGap (sample (1 / 10000) 10)) := by
  decide +kernel

/-- **C233.** With a tenth of a nanohenry and a hundred amperes what is answered does not meet the limit, and nothing tells: 40 micrometres, with which
one turn has more than twice the limit. -/
theorem saturation_missed : gapFromSaturation (sample (1 / 10000000000) 100) = some (initialGap (sample (1 / 10000000000) 100) * (3 / 2) ^ 15) ∧
    turnsAt (sample (1 / 10000000000) 100) (initialGap (sample (1 / 10000000000) 100) * (3 / 2) ^ 15) = some 1 ∧
    fluxDensity (sample (1 / 10000000000) 100) 1
      (classic (sample (1 / 10000000000) 100) (initialGap (sample (1 / 10000000000) 100) * (3 / 2) ^ 15)) > 6 / 10 := by
  decide +kernel

/-! ## C234: gap and turns at once -/

theorem ceilTurns_spec (c : Case K) (h : c.Sensible) : 1 ≤ ceilTurns c ∧ c.inductance * c.peak ≤ (ceilTurns c : K) * (c.limit * c.area) := by
  have hL := h.inductance; have hI := h.peak; have hB := h.limit; have hA := h.area
  refine ⟨?_, ?_⟩
  · have : 0 < ceilTurns c := by unfold ceilTurns; rw [Int.ceil_pos]; positivity
    omega
  · rw [← div_le_iff₀ (by positivity)]
    exact Int.le_ceil _

theorem turnsForGap_spec (c : Case K) (h : c.Sensible) {R : K} (hR : 0 < R) : 1 ≤ turnsForGap c R ∧
    4 * (c.inductance * R) < (2 * (turnsForGap c R : K) + 1) ^ 2 ∧
    (2 ≤ turnsForGap c R → (2 * (turnsForGap c R : K) - 1) ^ 2 ≤ 4 * (c.inductance * R)) := by
  have hpos := mul_pos h.inductance hR
  obtain ⟨h1, h2⟩ := rootRound_spec _ hpos.le
  unfold turnsForGap
  generalize rootRound (c.inductance * R) = r at *
  rcases Nat.eq_zero_or_pos r with rfl | hr
  · refine ⟨by simp, ?_, fun h2 => by simp at h2⟩
    have : ((max 1 ((0 : ℕ) : ℤ) : ℤ) : K) = 1 := by norm_num
    rw [this]
    push_cast at h1
    nlinarith
  · have hmax : max 1 (r : ℤ) = (r : ℤ) := max_eq_right (by exact_mod_cast hr)
    rw [hmax]
    refine ⟨by exact_mod_cast hr, ?_, fun _ => ?_⟩
    · rw [Int.cast_natCast]; exact h1
    · rw [Int.cast_natCast]; exact h2 hr

/-- Above the turns of the saturation, the turns nearest to the inductance always fit. -/
theorem fits_above (c : Case K) (h : c.Sensible) {R : K} (hR : 0 < R) (hmore : ceilTurns c < turnsForGap c R) :
    Fits c (turnsForGap c R : ℤ) R c.limit := by
  obtain ⟨h1, h2⟩ := ceilTurns_spec c h
  obtain ⟨_, _, h5⟩ := turnsForGap_spec c h hR
  have hL := h.inductance; have hI := h.peak; have hB := h.limit; have hA := h.area
  have h5 := h5 (by omega)
  have hm : (ceilTurns c : K) + 1 ≤ (turnsForGap c R : K) := by exact_mod_cast hmore
  have h1' : (1 : K) ≤ (ceilTurns c : K) := by exact_mod_cast h1
  generalize (ceilTurns c : K) = m at *
  generalize ((turnsForGap c R : ℤ) : K) = n at *
  unfold Fits
  -- `L I ≤ m B A`, `(2n-1)² ≤ 4 L R`, `m + 1 ≤ n`
  have hBA : 0 < c.limit * c.area := by positivity
  generalize c.limit * c.area = s at *
  have e1 : c.inductance * (n * c.peak) ≤ n * m * s := by nlinarith
  have e2 : 4 * (n * m) ≤ (2 * n - 1) ^ 2 := by nlinarith
  have e3 : 4 * (n * m) * s ≤ 4 * (c.inductance * R) * s := by
    have := le_trans e2 h5
    gcongr
  have e4 : c.inductance * (n * c.peak) ≤ c.inductance * (s * R) := by nlinarith
  exact le_of_mul_le_mul_left e4 hL

/-- **C234.** Without a gap: the core alone has at least the reluctance wanted with the turns of the saturation, and with the turns answered the flux
fits. -/
theorem ungapped_fits (c : Case K) (h : c.Sensible) (minGap : K) (reluctance : K → K) {turns : ℤ}
    (ha : optimal c minGap reluctance = .ungapped turns) : Fits c turns (coreReluctance c) c.limit ∧ 1 ≤ turns := by
  obtain ⟨h1, h2⟩ := ceilTurns_spec c h
  have hmax : max 1 (ceilTurns c) = ceilTurns c := max_eq_right h1
  have hL := h.inductance; have hI := h.peak; have hB := h.limit; have hA := h.area
  have hR := coreReluctance_pos c h
  unfold optimal at ha
  rw [hmax] at ha
  by_cases hn : neededReluctance c (ceilTurns c) ≤ 0
  · rw [if_pos hn, Answer.ungapped.injEq] at ha
    subst ha
    obtain ⟨h3, h4, h5⟩ := turnsForGap_spec c h hR
    refine ⟨?_, h3⟩
    unfold neededReluctance at hn
    rw [sub_nonpos, div_le_iff₀ hL] at hn
    rcases lt_trichotomy (ceilTurns c) (turnsForGap c (coreReluctance c)) with hlt | heq | hgt
    · exact fits_above c h hR hlt
    · rw [← heq]
      have h1' : (0 : K) < (ceilTurns c : K) := by exact_mod_cast h1
      generalize (ceilTurns c : K) = m at *
      generalize coreReluctance c = R at *
      unfold Fits
      have e1 : m * (c.inductance * c.peak) ≤ m * (m * (c.limit * c.area)) := by gcongr
      have hBA : 0 < c.limit * c.area := by positivity
      have e2 : m * m * (c.limit * c.area) ≤ R * c.inductance * (c.limit * c.area) := by gcongr
      have e3 : c.inductance * (m * c.peak) ≤ c.inductance * (c.limit * c.area * R) := by nlinarith
      exact le_of_mul_le_mul_left e3 hL
    · exfalso
      have hm : (turnsForGap c (coreReluctance c) : K) + 1 ≤ (ceilTurns c : K) := by exact_mod_cast hgt
      have h3' : (1 : K) ≤ (turnsForGap c (coreReluctance c) : K) := by exact_mod_cast h3
      generalize (ceilTurns c : K) = m at *
      generalize (turnsForGap c (coreReluctance c) : K) = n at *
      nlinarith
  · rw [if_neg hn] at ha
    split at ha
    · cases ha
    · unfold finish at ha
      split at ha
      · split at ha <;> cases ha
      · cases ha

/-- **C234.** With a gap: it is between the residual one and four tenths of the width of the column, and the turns are either those nearest to the
inductance, whose flux is not above the limit by a twentieth, or those of the saturation, with the very same gap that failed. -/
theorem gapped_spec (c : Case K) (h : c.Sensible) (minGap : K) (reluctance : K → K) (hR : ∀ g, minGap ≤ g → 0 < reluctance g)
    (hmin : minGap ≤ 4 / 10 * c.columnWidth) {gap : K} {turns : ℤ} (ha : optimal c minGap reluctance = .gapped gap turns) :
    minGap ≤ gap ∧ gap ≤ 4 / 10 * c.columnWidth ∧
      ((turns = turnsForGap c (reluctance gap) ∧ Fits c turns (reluctance gap) (c.limit * (105 / 100))) ∨
        (turns = ceilTurns c ∧ ¬ Fits c (turnsForGap c (reluctance gap) : ℤ) (reluctance gap) (c.limit * (105 / 100)))) := by
  obtain ⟨h1, _⟩ := ceilTurns_spec c h
  have hmax : max 1 (ceilTurns c) = ceilTurns c := max_eq_right h1
  unfold optimal at ha
  rw [hmax] at ha
  by_cases hn : neededReluctance c (ceilTurns c) ≤ 0
  · rw [if_pos hn] at ha; cases ha
  rw [if_neg hn] at ha
  by_cases hbig : neededReluctance c (ceilTurns c) * c.vacuum * c.columnArea > 4 / 10 * c.columnWidth
  · rw [if_pos hbig] at ha; cases ha
  rw [if_neg hbig] at ha
  push Not at hn hbig
  have hle : max minGap (neededReluctance c (ceilTurns c) * c.vacuum * c.columnArea) ≤ 4 / 10 * c.columnWidth := max_le hmin hbig
  unfold finish at ha
  have hpos := hR _ (le_max_left minGap (neededReluctance c (ceilTurns c) * c.vacuum * c.columnArea))
  have hiff := fluxDensity_le c h
    (turns := ((turnsForGap c (reluctance (max minGap (neededReluctance c (ceilTurns c) * c.vacuum * c.columnArea))) : ℤ) : K))
    (limit := c.limit * (105 / 100)) hpos
  by_cases hover : fluxDensity c
      ((turnsForGap c (reluctance (max minGap (neededReluctance c (ceilTurns c) * c.vacuum * c.columnArea))) : ℤ) : K)
      (reluctance (max minGap (neededReluctance c (ceilTurns c) * c.vacuum * c.columnArea))) > c.limit * (105 / 100)
  · rw [if_pos hover, if_pos hn, min_eq_right hle, Answer.gapped.injEq] at ha
    obtain ⟨rfl, rfl⟩ := ha
    exact ⟨le_max_left _ _, hle, .inr ⟨rfl, fun hf => absurd (hiff.mpr hf) (not_le.mpr hover)⟩⟩
  · rw [if_neg hover, Answer.gapped.injEq] at ha
    obtain ⟨rfl, rfl⟩ := ha
    exact ⟨le_max_left _ _, hle, .inl ⟨rfl, hiff.mp (not_lt.mp hover)⟩⟩

/-- **C234.** The correction that is made when the flux does not fit never makes it fit: what is answered has as much flux, or more. -/
theorem correction_does_not_help (c : Case K) (h : c.Sensible) {R : K} (hR : 0 < R)
    (hover : ¬ Fits c (turnsForGap c R : ℤ) R (c.limit * (105 / 100))) :
    turnsForGap c R ≤ ceilTurns c ∧ ¬ Fits c (ceilTurns c : ℤ) R (c.limit * (105 / 100)) := by
  have hI := h.peak; have hB := h.limit; have hA := h.area
  have hle : turnsForGap c R ≤ ceilTurns c := by
    by_contra hcon
    push Not at hcon
    refine hover (le_trans (fits_above c h hR hcon) ?_)
    have : c.limit * c.area * R ≤ c.limit * (105 / 100) * c.area * R := by
      have : (0 : K) < c.limit * c.area * R := by positivity
      nlinarith
    exact this
  refine ⟨hle, fun hf => hover (le_trans ?_ hf)⟩
  have hle' : (turnsForGap c R : K) ≤ (ceilTurns c : K) := by exact_mod_cast hle
  gcongr

/-- **C234.** What is answered with a gap has a flux density of no more than the limit and a twentieth exactly when the turns nearest to the inductance have
it.

Partial: see `gap_over_limit`. -/
theorem gapped_fits_partial (c : Case K) (h : c.Sensible) (minGap : K) (reluctance : K → K) (hR : ∀ g, minGap ≤ g → 0 < reluctance g)
    (hmin : minGap ≤ 4 / 10 * c.columnWidth) {gap : K} {turns : ℤ} (ha : optimal c minGap reluctance = .gapped gap turns) :
    Fits c turns (reluctance gap) (c.limit * (105 / 100)) ↔
      Fits c (turnsForGap c (reluctance gap) : ℤ) (reluctance gap) (c.limit * (105 / 100)) := by
  obtain ⟨h1, _, h3 | h3⟩ := gapped_spec c h minGap reluctance hR hmin ha
  · rw [h3.1]
  · rw [h3.1]
    exact ⟨fun hf => absurd hf (correction_does_not_help c h (hR _ h1) h3.2).2, fun hf => absurd hf h3.2⟩

/-- **C234.** If the reluctance of the core with the gap is no less than what the turns of the saturation ask for, which is so for a gap without
fringing, what is answered fits. -/
theorem fits_without_fringing (c : Case K) (h : c.Sensible) (minGap : K) (reluctance : K → K) (hR : ∀ g, minGap ≤ g → 0 < reluctance g)
    (hmin : minGap ≤ 4 / 10 * c.columnWidth) {gap : K} {turns : ℤ} (ha : optimal c minGap reluctance = .gapped gap turns)
    (hno : (ceilTurns c : K) * ceilTurns c / c.inductance ≤ reluctance gap) : Fits c turns (reluctance gap) c.limit := by
  obtain ⟨h1, h2⟩ := ceilTurns_spec c h
  have hL := h.inductance; have hI := h.peak; have hB := h.limit; have hA := h.area
  have h1' : (0 : K) < (ceilTurns c : K) := by exact_mod_cast h1
  have hceil : Fits c (ceilTurns c : ℤ) (reluctance gap) c.limit := by
    rw [div_le_iff₀ hL] at hno
    generalize (ceilTurns c : K) = m at *
    generalize reluctance gap = R at *
    unfold Fits
    have e1 : m * (c.inductance * c.peak) ≤ m * (m * (c.limit * c.area)) := by gcongr
    have hBA : 0 < c.limit * c.area := by positivity
    have e2 : m * m * (c.limit * c.area) ≤ R * c.inductance * (c.limit * c.area) := by gcongr
    have e3 : c.inductance * (m * c.peak) ≤ c.inductance * (c.limit * c.area * R) := by nlinarith
    exact le_of_mul_le_mul_left e3 hL
  obtain ⟨hg, _, h3 | h3⟩ := gapped_spec c h minGap reluctance hR hmin ha
  · rw [h3.1]
    rcases lt_or_ge (ceilTurns c) (turnsForGap c (reluctance gap)) with hlt | hge
    · exact fits_above c h (hR _ hg) hlt
    · refine le_trans ?_ hceil
      have : (turnsForGap c (reluctance gap) : K) ≤ (ceilTurns c : K) := by exact_mod_cast hge
      gcongr
  · rw [h3.1]; exact hceil

/-- A gap with a fringing that doubles the area of the gap for each 2 millimetres. -/
def fringing (c : Case ℚ) (gap : ℚ) : ℚ := coreReluctance c + gap / (c.vacuum * c.columnArea * (1 + 500 * gap))

/-- **C234.** An eighth of a millihenry and 10 A on a core of one square centimetre: the gap is of 1.7 millimetres and the turns are 42, with which the
flux density is above the limit by two thirds. -/
theorem gap_over_limit : ∃ gap : ℚ, optimal (sample (1 / 8000) 10) (5 / 1000000) (fringing (sample (1 / 8000) 10)) = .gapped gap 42 ∧
    gap < 2 / 1000 ∧ fluxDensity (sample (1 / 8000) 10) 42 (fringing (sample (1 / 8000) 10) gap) > 5 / 10 :=
  ⟨max (5 / 1000000) (neededReluctance (sample (1 / 8000) 10) 42 * (sample (1 / 8000) 10).vacuum * (sample (1 / 8000) 10).columnArea), by decide +kernel⟩

/-- Cases of the answers: no gap, too small, and a gap that fits. -/
example : optimal (sample (1 / 100) (1 / 100)) (5 / 1000000) (fringing (sample (1 / 100) (1 / 100))) = .ungapped 63 ∧
    optimal (sample (1 / 100) 10) (5 / 1000000) (fringing (sample (1 / 100) 10)) = .tooSmall ∧
    optimal (sample (1 / 10000) 3) (5 / 1000000) (fringing (sample (1 / 10000) 3)) =
      .gapped (neededReluctance (sample (1 / 10000) 3) 10 * (sample (1 / 10000) 3).vacuum * (sample (1 / 10000) 3).columnArea) 10 := by
  decide +kernel

/-! ## C235: turns and flux by Faraday's law -/

/-- The least number of turns, one at least, with which a flux of some volt-seconds fits. -/
def LeastTurns (area voltSeconds limit : K) (turns : ℤ) : Prop :=
  1 ≤ turns ∧ voltSeconds ≤ limit * ((turns : K) * area) ∧ ∀ m : ℤ, 1 ≤ m → voltSeconds ≤ limit * ((m : K) * area) → turns ≤ m

theorem least_of_ceil {area voltSeconds limit : K} (ha : 0 < area) (hl : 0 < limit) :
    LeastTurns area voltSeconds limit (max 1 ⌈voltSeconds / (limit * area)⌉) := by
  have hp : 0 < limit * area := by positivity
  refine ⟨le_max_left _ _, ?_, fun m hm hfit => max_le hm ?_⟩
  · have h1 : voltSeconds / (limit * area) ≤ (⌈voltSeconds / (limit * area)⌉ : K) := Int.le_ceil _
    have h2 : (⌈voltSeconds / (limit * area)⌉ : K) ≤ ((max 1 ⌈voltSeconds / (limit * area)⌉ : ℤ) : K) := by exact_mod_cast le_max_right _ _
    have h3 := (div_le_iff₀ hp).mp (le_trans h1 h2)
    linarith
  · rw [Int.ceil_le, div_le_iff₀ hp]
    linarith

/-- **C235.** The turns from the volt-seconds are the least with which the flux density fits, and that is what is then answered for them. -/
theorem turns_from_volt_seconds {area voltSeconds limit : K} (ha : 0 < area) (hl : 0 < limit) (hv : 0 < voltSeconds) :
    LeastTurns area voltSeconds limit (turnsFromVoltSeconds area voltSeconds limit) ∧
      fluxFromVoltSeconds area (turnsFromVoltSeconds area voltSeconds limit : ℤ) voltSeconds ≤ limit := by
  have hdef : turnsFromVoltSeconds area voltSeconds limit = max 1 ⌈voltSeconds / (limit * area)⌉ := by
    unfold turnsFromVoltSeconds
    rw [if_neg (by push Not; exact ⟨ha, hl, hv⟩)]
  have hleast := least_of_ceil (voltSeconds := voltSeconds) ha hl
  rw [← hdef] at hleast
  refine ⟨hleast, ?_⟩
  obtain ⟨h1, h2, _⟩ := hleast
  have h1' : (0 : K) < (turnsFromVoltSeconds area voltSeconds limit : K) := by exact_mod_cast h1
  unfold fluxFromVoltSeconds
  rw [if_neg (by push Not; exact ⟨h1', ha, hv⟩), div_le_iff₀ (by positivity)]
  exact h2

/-- **C235.** So are those from the peak of a sinusoidal voltage, whose volt-seconds are the peak over the angular frequency. -/
theorem turns_from_voltage {area voltage omega limit : K} (ha : 0 < area) (hl : 0 < limit) (ho : 0 < omega) :
    LeastTurns area (voltage / omega) limit (turnsFromVoltage area voltage omega limit) ∧
      fluxFromVoltage area (turnsFromVoltage area voltage omega limit : ℤ) voltage omega ≤ limit := by
  have hdef : turnsFromVoltage area voltage omega limit = max 1 ⌈voltage / omega / (limit * area)⌉ := by
    unfold turnsFromVoltage
    rw [if_neg (by push Not; exact ⟨ha, ho, hl⟩), div_div]
    congr 3
    ring
  have hleast := least_of_ceil (voltSeconds := voltage / omega) ha hl
  rw [← hdef] at hleast
  refine ⟨hleast, ?_⟩
  obtain ⟨h1, h2, _⟩ := hleast
  have h1' : (0 : K) < (turnsFromVoltage area voltage omega limit : K) := by exact_mod_cast h1
  unfold fluxFromVoltage
  rw [if_neg (by push Not; exact ⟨h1', ha, ho⟩), div_le_iff₀ (by positivity)]
  rw [div_le_iff₀ ho] at h2
  linarith

/-- **C235.** Where the law says nothing, the two functions of the turns say different things, none or one, and those of the flux density say none: never
an error. -/
theorem degenerate (area voltSeconds limit voltage omega turns : K) :
    (area ≤ 0 ∨ limit ≤ 0 ∨ voltSeconds ≤ 0 → turnsFromVoltSeconds area voltSeconds limit = 0) ∧
      (area ≤ 0 ∨ omega ≤ 0 ∨ limit ≤ 0 → turnsFromVoltage area voltage omega limit = 1) ∧
      (turns ≤ 0 → fluxFromVoltSeconds area turns voltSeconds = 0 ∧ fluxFromVoltage area turns voltage omega = 0) := by
  refine ⟨fun h => if_pos h, fun h => if_pos h, fun h => ⟨if_pos (.inl h), if_pos (.inl h)⟩⟩

/-- Case of both. -/
example : turnsFromVoltSeconds (1 / 10000 : ℚ) (1 / 1000) (3 / 10) = 34 ∧ turnsFromVoltage (1 / 10000 : ℚ) 400 628000 (3 / 10) = 22 := by
  decide +kernel

end Verif.Magnetizing.Saturation
