import Verif.Waveforms.Props
import Verif.Waveforms.Process
import Mathlib.Tactic.FieldSimp
import Mathlib.Tactic.LinearCombination

/-! # Waveforms made from a shape, and what is measured back on them (C127, C128) -/

namespace Verif.Waveforms

open Verif.Round (roundFloat)

set_option linter.unusedSectionVars false
set_option linter.unusedSimpArgs false

variable {K : Type} [Field K] [LinearOrder K] [IsStrictOrderedRing K] [FloorRing K]

/-! ## Specification -/

/-- `hi` and `lo` are the largest and the smallest of the values. -/
def Extremes (data : List K) (hi lo : K) : Prop := hi ∈ data ∧ lo ∈ data ∧ ∀ d ∈ data, lo ≤ d ∧ d ≤ hi

/-- The duty cycle a shape is made with: two shapes stop at one half. -/
def usedDuty (label : Label) (duty : K) : K :=
  match label with
  | .unipolarRectangular | .bipolarTriangular => if duty ≤ 1 / 2 then duty else 1 / 2
  | _ => duty

/-- The average each shape should have, from its geometry. -/
def shapeAverage (label : Label) (p2p duty offset : K) : K :=
  match label with
  | .unipolarTriangular => offset + p2p * duty / 2
  | .unipolarRectangular => offset + p2p * usedDuty label duty
  | .bipolarRectangular | .bipolarTriangular => 0
  | .flybackPrimary => duty * (offset + p2p / 2)
  | .flybackSecondary => (1 - duty) * (offset + p2p / 2)
  | _ => offset

/-- The shapes made of straight lines whose times are fixed by the duty cycle alone. -/
def Plain (label : Label) : Prop :=
  label = .triangular ∨ label = .unipolarTriangular ∨ label = .rectangular ∨ label = .secondaryRectangular ∨
  label = .unipolarRectangular ∨ label = .bipolarRectangular ∨ label = .bipolarTriangular ∨
  label = .flybackPrimary ∨ label = .flybackSecondary

/-! ## Lemmas -/

theorem maxElement_eq (l : List K) (m : K) (h : m ∈ l) (hb : ∀ x ∈ l, x ≤ m) : maxElement l = .ok m := by
  rcases l with _ | ⟨x, l⟩
  · simp at h
  · have gen : ∀ (l : List K) (b : K), b ≤ l.foldl max b ∧ (∀ y ∈ l, y ≤ l.foldl max b) ∧
        (l.foldl max b = b ∨ l.foldl max b ∈ l) := by
      intro l
      induction l with
      | nil => intro b; simp
      | cons y l ih =>
        intro b
        obtain ⟨i1, i2, i3⟩ := ih (max b y)
        simp only [List.foldl_cons]
        refine ⟨(le_max_left _ _).trans i1, ?_, ?_⟩
        · intro z hz
          rcases List.mem_cons.mp hz with rfl | hz
          · exact (le_max_right _ _).trans i1
          · exact i2 z hz
        · rcases i3 with e | e
          · rcases max_choice b y with e' | e'
            · left; rw [e, e']
            · right; rw [e, e']; simp
          · right; exact List.mem_cons_of_mem _ e
    obtain ⟨g1, g2, g3⟩ := gen l x
    unfold maxElement
    simp only [Res.ok.injEq]
    apply le_antisymm
    · rcases g3 with e | e
      · rw [e]; exact hb x (by simp)
      · exact hb _ (List.mem_cons_of_mem _ e)
    · rcases List.mem_cons.mp h with rfl | h
      · exact g1
      · exact g2 m h

theorem minElement_eq (l : List K) (m : K) (h : m ∈ l) (hb : ∀ x ∈ l, m ≤ x) : minElement l = .ok m := by
  rcases l with _ | ⟨x, l⟩
  · simp at h
  · have gen : ∀ (l : List K) (b : K), l.foldl min b ≤ b ∧ (∀ y ∈ l, l.foldl min b ≤ y) ∧
        (l.foldl min b = b ∨ l.foldl min b ∈ l) := by
      intro l
      induction l with
      | nil => intro b; simp
      | cons y l ih =>
        intro b
        obtain ⟨i1, i2, i3⟩ := ih (min b y)
        simp only [List.foldl_cons]
        refine ⟨i1.trans (min_le_left _ _), ?_, ?_⟩
        · intro z hz
          rcases List.mem_cons.mp hz with rfl | hz
          · exact i1.trans (min_le_right _ _)
          · exact i2 z hz
        · rcases i3 with e | e
          · rcases min_choice b y with e' | e'
            · left; rw [e, e']
            · right; rw [e, e']; simp
          · right; exact List.mem_cons_of_mem _ e
    obtain ⟨g1, g2, g3⟩ := gen l x
    unfold minElement
    simp only [Res.ok.injEq]
    apply le_antisymm
    · rcases List.mem_cons.mp h with rfl | h
      · exact g1
      · exact g2 m h
    · rcases g3 with e | e
      · rw [e]; exact hb x (by simp)
      · exact hb _ (List.mem_cons_of_mem _ e)

theorem create_plain (sine : K → K) (twoPi : K) (label : Label) (p2p f duty offset dead skew phase : K)
    (setting : Nat) (hf : 0 < f) (hs : skew ≤ 0) :
    create sine twoPi label p2p f duty offset dead skew phase setting
      = (vertices sine twoPi label p2p (1 / f) duty offset dead phase setting).bind fun v =>
          .ok ⟨v.1, some v.2, some label⟩ := by
  unfold create
  rw [if_neg hf.ne']
  congr 1
  funext v
  obtain ⟨d, t⟩ := v
  simp only
  rw [if_neg (not_lt.mpr hs)]

/-- The duty cycle read off the time of a corner, in periods. -/
theorem reached_eq (ts : List K) (i : Nat) (T x : K) (h0 : ts.head? = some 0) (hT : ts.getLast? = some T) (hp : 0 < T)
    (hi : ts[i]? = some x) : reached ts i = .ok (x / T) := by
  unfold reached fractionOf at' span
  have h0' : ts[0]? = some 0 := by rw [← List.head?_eq_getElem?]; exact h0
  simp only [hi, h0', h0, hT, Res.bind, sub_zero]
  rw [if_neg hp.ne']

theorem between_eq (ts : List K) (i j : Nat) (T x y : K) (h0 : ts.head? = some 0) (hT : ts.getLast? = some T)
    (hp : 0 < T) (hi : ts[i]? = some x) (hj : ts[j]? = some y) : between ts i j = .ok ((y - x) / T) := by
  unfold between fractionOf at' span
  simp only [hi, hj, h0, hT, Res.bind, sub_zero]
  rw [if_neg hp.ne']

/-- Basic processed data of a waveform with a label and few points. -/
theorem basic_labelled (sine : K → K) (twoPi : K) (w : Waveform K) (setting : Nat) (l : Label) (off mx mn du : K)
    (hl : w.label = some l) (hns : isSampled w setting = false) (ho : offsetOf w.data l = .ok off)
    (hx : maxElement w.data = .ok mx) (hn : minElement w.data = .ok mn) (hd : guessDuty w l setting = .ok du) :
    basicProcessed sine twoPi w setting
      = .ok { label := l, offset := off,
              peakToPeak := some (if l = .flybackPrimary ∨ l = .flybackSecondary then mx - mn - off else mx - mn),
              peak := some (max mx (-mn)), positivePeak := some mx, negativePeak := some mn,
              dutyCycle := some du, average := none, rms := none, effectiveFrequency := none,
              acEffectiveFrequency := none, thd := none } := by
  unfold basicProcessed forLabel guessLabel
  simp only [hns, Bool.false_eq_true, if_false, Res.bind, hl, ho, hx, hn, hd]
  split_ifs <;> rfl

theorem unsampled_of_size (w : Waveform K) (setting : Nat) (h : w.data.length < setting) :
    isSampled w setting = false := by
  unfold isSampled isImported
  cases w.time with
  | none => rfl
  | some ts =>
    simp only
    have h1 : ¬ w.data.length > setting := by omega
    have h2 : ¬ w.data.length = setting := by omega
    simp [h1, h2]

/-! ## C127: the shapes -/

/-- C127: the waveform of a shape of straight lines starts at time zero, ends a period later, has as many times as
values, its times never go back, and it carries its label: for duty cycles that are not negative and leave room for the
dead time in the period, and no skew; bipolar rectangular waveforms need a duty cycle of one half at most. -/
theorem created_times_partial (sine : K → K) (twoPi : K) (label : Label) (p2p f duty offset dead skew phase : K)
    (setting : Nat) (hf : 0 < f) (hs : skew ≤ 0) (h0 : 0 ≤ duty) (hd0 : 0 ≤ dead)
    (hd1 : duty * (1 / f) + dead ≤ 1 / f) (hbip : label = .bipolarRectangular → duty ≤ 1 / 2)
    (hlab : label ≠ .sinusoidal ∧ label ≠ .custom) :
    ∃ w ts, create sine twoPi label p2p f duty offset dead skew phase setting = .ok w ∧
      WellTimed w ts (1 / f) ∧ ts.head? = some 0 ∧ w.label = some label := by
  rw [create_plain sine twoPi label p2p f duty offset dead skew phase setting hf hs]
  have hT : 0 < 1 / f := by positivity
  generalize hTT : 1 / f = T at hT hd1
  have hdc0 : 0 ≤ duty * T := mul_nonneg h0 hT.le
  have hdc1 : duty * T ≤ T := by linarith
  have hm0 : 0 ≤ min (1 / 2) duty * T := mul_nonneg (le_min (by norm_num) h0) hT.le
  have hm1 : min (1 / 2) duty * T ≤ 1 / 2 * T := mul_le_mul_of_nonneg_right (min_le_left _ _) hT.le
  generalize hmm : min (1 / 2) duty * T = m at hm0 hm1
  have hb : label = .bipolarRectangular → duty * T ≤ 1 / 2 * T :=
    fun h => mul_le_mul_of_nonneg_right (hbip h) hT.le
  generalize hdd : duty * T = dc at hdc0 hdc1 hd1 hb
  cases label <;>
    first
    | (exact absurd rfl hlab.1)
    | (exact absurd rfl hlab.2)
    | (refine ⟨_, _, rfl, ⟨rfl, by simp, ?_, by simp [span], hT⟩, by simp, rfl⟩
       simp only [hdd, hmm]
       simp only [reduceCtorEq, forall_const, IsEmpty.forall_iff] at hb
       simp only [List.pairwise_cons, List.mem_cons, List.not_mem_nil, or_false, forall_eq_or_imp, forall_eq,
         List.Pairwise.nil, and_true, IsEmpty.forall_iff, implies_true, le_refl, true_and]
       refine ⟨?_, ?_⟩ <;> (try constructor) <;> (try constructorm* _ ∧ _) <;> linarith)

/-- C127: a bipolar rectangular waveform of a duty cycle above one half is made all the same, and the second of its
times lies before the first. -/
theorem bipolar_times_go_back (sine : K → K) (twoPi p2p f duty offset dead skew phase : K) (setting : Nat)
    (hf : 0 < f) (hs : skew ≤ 0) (h : 1 / 2 < duty) :
    ∃ w a rest, create sine twoPi .bipolarRectangular p2p f duty offset dead skew phase setting = .ok w ∧
      w.time = some (0 :: a :: rest) ∧ a < 0 := by
  rw [create_plain sine twoPi _ p2p f duty offset dead skew phase setting hf hs]
  refine ⟨_, _, _, rfl, rfl, ?_⟩
  have hT : 0 < 1 / f := by positivity
  nlinarith

/-- C127: the values of a shape span the peak to peak asked for; those of flyback waveforms span the offset as
well. -/
theorem created_extremes (sine : K → K) (twoPi : K) (label : Label) (p2p f duty offset dead skew phase : K)
    (setting : Nat) (hf : 0 < f) (hs : skew ≤ 0) (hp : 0 ≤ p2p) (hpl : Plain label)
    (hoff : label = .flybackPrimary ∨ label = .flybackSecondary → 0 ≤ offset) :
    ∃ w hi lo, create sine twoPi label p2p f duty offset dead skew phase setting = .ok w ∧ Extremes w.data hi lo ∧
      hi - lo = (if label = .flybackPrimary ∨ label = .flybackSecondary then p2p + offset else p2p) ∧
      (label = .unipolarTriangular ∨ label = .unipolarRectangular → lo = offset) := by
  rw [create_plain sine twoPi label p2p f duty offset dead skew phase setting hf hs]
  rcases hpl with rfl | rfl | rfl | rfl | rfl | rfl | rfl | rfl | rfl
  · refine ⟨_, p2p / 2 + offset, -p2p / 2 + offset, rfl, ⟨by simp, by simp, ?_⟩, by simp; ring, by simp⟩
    simp; linarith
  · refine ⟨_, p2p + offset, offset, rfl, ⟨by simp, by simp, ?_⟩, by simp, by simp⟩
    simp; linarith
  · refine ⟨_, p2p * (1 - duty) + offset, -p2p * duty + offset, rfl, ⟨by simp, by simp, ?_⟩, by simp; ring, by simp⟩
    simp only [List.mem_cons, List.not_mem_nil, or_false, forall_eq_or_imp, forall_eq]
    refine ⟨?_, ?_, ?_, ?_, ?_⟩ <;> constructor <;> linarith
  · refine ⟨_, p2p * duty + offset, -p2p * (1 - duty) + offset, rfl, ⟨by simp, by simp, ?_⟩, by simp; ring, by simp⟩
    simp only [List.mem_cons, List.not_mem_nil, or_false, forall_eq_or_imp, forall_eq]
    refine ⟨?_, ?_, ?_, ?_, ?_⟩ <;> constructor <;> linarith
  · refine ⟨_, p2p + offset, offset, rfl, ⟨by simp, by simp, ?_⟩, by simp, by simp⟩
    simp; linarith
  · refine ⟨_, p2p / 2, -p2p / 2, rfl, ⟨by simp, by simp, ?_⟩, by simp; ring, by simp⟩
    simp only [List.mem_cons, List.not_mem_nil, or_false, forall_eq_or_imp, forall_eq]
    refine ⟨?_, ?_, ?_, ?_, ?_, ?_, ?_, ?_, ?_, ?_⟩ <;> constructor <;> linarith
  · refine ⟨_, p2p / 2, -p2p / 2, rfl, ⟨by simp, by simp, ?_⟩, by simp; ring, by simp⟩
    simp only [List.mem_cons, List.not_mem_nil, or_false, forall_eq_or_imp, forall_eq]
    refine ⟨?_, ?_, ?_, ?_, ?_, ?_⟩ <;> constructor <;> linarith
  · have := hoff (by simp)
    refine ⟨_, p2p + offset, 0, rfl, ⟨by simp, by simp, ?_⟩, by simp, by simp⟩
    simp only [List.mem_cons, List.not_mem_nil, or_false, forall_eq_or_imp, forall_eq]
    refine ⟨?_, ?_, ?_, ?_, ?_⟩ <;> constructor <;> linarith
  · have := hoff (by simp)
    refine ⟨_, p2p + offset, 0, rfl, ⟨by simp, by simp, ?_⟩, by simp, by simp⟩
    simp only [List.mem_cons, List.not_mem_nil, or_false, forall_eq_or_imp, forall_eq]
    refine ⟨?_, ?_, ?_, ?_, ?_⟩ <;> constructor <;> linarith

theorem min_used (duty : K) : min (1 / 2) duty = if duty ≤ 1 / 2 then duty else 1 / 2 := by
  by_cases h : duty ≤ 1 / 2
  · rw [if_pos h, min_eq_right h]
  · rw [if_neg h, min_eq_left (not_le.mp h).le]

/-- C127: the average of a shape is the one its geometry gives: the offset for triangular and rectangular
waveforms, none for bipolar ones, which take no notice of the offset. -/
theorem created_average (sine : K → K) (twoPi : K) (label : Label) (p2p f duty offset dead skew phase : K)
    (setting : Nat) (hf : 0 < f) (hs : skew ≤ 0) (hpl : Plain label) :
    ∃ w, create sine twoPi label p2p f duty offset dead skew phase setting = .ok w ∧
      average w = .ok (shapeAverage label p2p duty offset) := by
  rw [create_plain sine twoPi label p2p f duty offset dead skew phase setting hf hs]
  rcases hpl with rfl | rfl | rfl | rfl | rfl | rfl | rfl | rfl | rfl
  all_goals
    refine ⟨_, rfl, ?_⟩
    unfold average
    simp only [span, List.head?_cons, List.getLast?_cons_cons, List.getLast?_singleton, reduceCtorEq, if_false,
      trapezia, Res.bind, sub_zero, List.cons_ne_nil]
    rw [if_neg (by positivity)]
    simp only [shapeAverage, usedDuty, Res.ok.injEq, ← min_used]
    field_simp
    ring

/-- C127: an offset makes no difference to bipolar waveforms. -/
theorem bipolar_ignores_offset (sine : K → K) (twoPi p2p f duty o1 o2 dead skew phase : K) (setting : Nat)
    (label : Label) (h : label = .bipolarRectangular ∨ label = .bipolarTriangular) :
    create sine twoPi label p2p f duty o1 dead skew phase setting
      = create sine twoPi label p2p f duty o2 dead skew phase setting := by
  rcases h with rfl | rfl <;> rfl

/-- C127: a negative skew is not looked at. -/
theorem negative_skew_ignored (sine : K → K) (twoPi : K) (label : Label) (p2p f duty offset dead s1 s2 phase : K)
    (setting : Nat) (h1 : s1 ≤ 0) (h2 : s2 ≤ 0) :
    create sine twoPi label p2p f duty offset dead s1 phase setting
      = create sine twoPi label p2p f duty offset dead s2 phase setting := by
  unfold create
  by_cases hf : f = 0
  · rw [if_pos hf, if_pos hf]
  · rw [if_neg hf, if_neg hf]
    congr 1
    funext v
    obtain ⟨d, t⟩ := v
    simp only
    rw [if_neg (not_lt.mpr h1), if_neg (not_lt.mpr h2)]

/-- C127: a skew of more than a period rotates the samples by more than there are, which is undefined. -/
theorem long_skew_undefined :
    create (K := ℚ) (fun x => x) 6 .triangular 2 1 (1 / 2) 0 0 (5 / 4) 0 8 = .ub ∧
    create (K := ℚ) (fun x => x) 6 .triangular 2 1 (1 / 2) 0 0 (1 / 4) 0 8
      = .ok ⟨[0, -1, 1, 0], some [0, 1 / 4, 3 / 4, 1], some .triangular⟩ := by decide +kernel

/-- C127: a skew of a whole period changes nothing but the sampling: the waveform is the one it was, compressed again. -/
theorem whole_skew (w s : Waveform K) (frequency period : K) (setting : Nat) (hp : 0 < period)
    (hs : sampled w frequency none setting = .ok s) (hne : s.data ≠ []) :
    skewed w frequency period period setting = compress s := by
  have hn : (0 : K) < (s.data.length : K) := by exact_mod_cast List.length_pos_of_ne_nil hne
  have hr : period / (period / (s.data.length : K)) = (((s.data.length : ℕ) : ℤ) : K) := by
    rw [div_div_eq_mul_div, mul_comm, mul_div_assoc, div_self hp.ne', mul_one]
    push_cast; rfl
  unfold skewed
  rw [hs]
  simp only [Res.bind, hr, Round.round_intCast, Int.toNat_natCast, gt_iff_lt, lt_irrefl, if_false, rotateRight, Nat.sub_self,
    List.rotate_zero]

/-! ## C128: measuring the shapes -/

/-- C128: label, duty cycle, offset and peak to peak come back from a waveform that was made from them: for
triangular, unipolar triangular, bipolar and flyback waveforms, and unipolar rectangular ones; the duty cycle as it
was used, the offset of bipolar waveforms as none. -/
theorem measured_back_partial (sine : K → K) (twoPi : K) (label : Label) (p2p f duty offset dead skew phase : K)
    (setting : Nat) (hf : 0 < f) (hs : skew ≤ 0) (hp : 0 ≤ p2p) (hset : 10 < setting) (hpl : Plain label)
    (hr : label ≠ .rectangular ∧ label ≠ .secondaryRectangular)
    (hoff : label = .flybackPrimary ∨ label = .flybackSecondary → 0 ≤ offset) :
    ∃ w p, create sine twoPi label p2p f duty offset dead skew phase setting = .ok w ∧
      basicProcessed sine twoPi w setting = .ok p ∧ p.label = label ∧ p.peakToPeak = some p2p ∧
      p.dutyCycle = some (usedDuty label duty) ∧
      p.offset = (if label = .bipolarRectangular ∨ label = .bipolarTriangular then 0 else offset) := by
  obtain ⟨w, hi, lo, hw, ⟨hhi, hlo, hext⟩, hsp, hlow⟩ :=
    created_extremes sine twoPi label p2p f duty offset dead skew phase setting hf hs hp hpl hoff
  have hmx := maxElement_eq w.data hi hhi fun x hx => (hext x hx).2
  have hmn := minElement_eq w.data lo hlo fun x hx => (hext x hx).1
  have hw' := hw
  rw [create_plain sine twoPi label p2p f duty offset dead skew phase setting hf hs] at hw'
  have hT : 0 < 1 / f := by positivity
  have hne : (1 / f : K) ≠ 0 := hT.ne'
  have hlab : w.label = some label := by
    rcases hpl with rfl | rfl | rfl | rfl | rfl | rfl | rfl | rfl | rfl <;>
      (simp only [vertices, Res.bind, Res.ok.injEq] at hw'; subst hw'; rfl)
  have hns : isSampled w setting = false := by
    apply unsampled_of_size
    rcases hpl with rfl | rfl | rfl | rfl | rfl | rfl | rfl | rfl | rfl <;>
      (simp only [vertices, Res.bind, Res.ok.injEq] at hw'; subst hw'; simp; omega)
  have hduty : guessDuty w label setting = .ok (usedDuty label duty) := by
    rcases hpl with rfl | rfl | rfl | rfl | rfl | rfl | rfl | rfl | rfl
    · simp only [vertices, Res.bind, Res.ok.injEq] at hw'; subst hw'
      simp only [guessDuty, dutyOfLabel, List.length_cons, List.length_nil, if_true]
      rw [reached_eq _ 1 (1 / f) _ rfl rfl hT rfl, mul_div_assoc, div_self hne, mul_one]; rfl
    · simp only [vertices, Res.bind, Res.ok.injEq] at hw'; subst hw'
      simp only [guessDuty, dutyOfLabel]
      rw [reached_eq _ 1 (1 / f) _ rfl rfl hT rfl, mul_div_assoc, div_self hne, mul_one]; rfl
    · exact absurd rfl hr.1
    · exact absurd rfl hr.2
    · simp only [vertices, Res.bind, Res.ok.injEq] at hw'; subst hw'
      simp only [guessDuty, dutyOfLabel]
      rw [reached_eq _ 2 (1 / f) _ rfl rfl hT rfl, mul_div_assoc, div_self hne, mul_one, min_used]; rfl
    · simp only [vertices, Res.bind, Res.ok.injEq] at hw'; subst hw'
      simp only [guessDuty, dutyOfLabel]
      rw [between_eq _ 2 3 (1 / f) _ _ rfl rfl hT rfl rfl]
      simp only [usedDuty, Res.ok.injEq]
      field_simp; ring
    · simp only [vertices, Res.bind, Res.ok.injEq] at hw'; subst hw'
      simp only [guessDuty, dutyOfLabel]
      rw [between_eq _ 1 2 (1 / f) _ _ rfl rfl hT rfl rfl]
      simp only [usedDuty, Res.ok.injEq, ← min_used]
      field_simp; ring
    · simp only [vertices, Res.bind, Res.ok.injEq] at hw'; subst hw'
      simp only [guessDuty, dutyOfLabel]
      simp only [List.length_cons, List.length_nil, Nat.reduceAdd, Nat.reduceEqDiff, if_false, if_true]
      rw [reached_eq _ 2 (1 / f) _ rfl rfl hT rfl, mul_div_assoc, div_self hne, mul_one]; rfl
    · simp only [vertices, Res.bind, Res.ok.injEq] at hw'; subst hw'
      simp only [guessDuty, dutyOfLabel]
      simp only [List.length_cons, List.length_nil, Nat.reduceAdd, Nat.reduceEqDiff, if_false, if_true]
      rw [reached_eq _ 2 (1 / f) _ rfl rfl hT rfl, mul_div_assoc, div_self hne, mul_one]; rfl
  have hof : offsetOf w.data label
      = .ok (if label = .bipolarRectangular ∨ label = .bipolarTriangular then 0 else offset) := by
    rcases hpl with rfl | rfl | rfl | rfl | rfl | rfl | rfl | rfl | rfl
    · simp only [vertices, Res.bind, Res.ok.injEq] at hw'; subst hw'
      simp [offsetOf, at', Res.bind]; ring
    · simp only [offsetOf, hmn]; rw [hlow (by simp)]; simp
    · exact absurd rfl hr.1
    · exact absurd rfl hr.2
    · simp only [offsetOf, hmn]; rw [hlow (by simp)]; simp
    · simp [offsetOf]
    · simp [offsetOf]
    · simp only [vertices, Res.bind, Res.ok.injEq] at hw'; subst hw'
      simp [offsetOf, at']
    · simp only [vertices, Res.bind, Res.ok.injEq] at hw'; subst hw'
      simp [offsetOf, at']
  refine ⟨w, _, hw, basic_labelled sine twoPi w setting label _ hi lo _ hlab hns hof hmx hmn hduty, rfl, ?_, rfl, rfl⟩
  simp only [Option.some.injEq]
  rw [hsp]
  by_cases hfl : label = .flybackPrimary ∨ label = .flybackSecondary
  · have hnb : ¬ (label = .bipolarRectangular ∨ label = .bipolarTriangular) := by
      rcases hfl with rfl | rfl <;> simp
    rw [if_pos hfl, if_pos hfl, if_neg hnb]; ring
  · rw [if_neg hfl, if_neg hfl]

/-- C128: a rectangular waveform comes back with its duty cycle and peak to peak, but its offset is reported as
none whatever it is. -/
theorem rectangular_offset_lost (sine : K → K) (twoPi p2p f duty offset dead skew phase : K)
    (setting : Nat) (hf : 0 < f) (hs : skew ≤ 0) (hp : 0 ≤ p2p) (hset : 10 < setting) :
    ∃ w p, create sine twoPi .rectangular p2p f duty offset dead skew phase setting = .ok w ∧
      basicProcessed sine twoPi w setting = .ok p ∧ p.label = .rectangular ∧ p.peakToPeak = some p2p ∧
      p.dutyCycle = some duty ∧ p.offset = 0 ∧ average w = .ok offset := by
  obtain ⟨w, hi, lo, hw, ⟨hhi, hlo, hext⟩, hsp, _⟩ :=
    created_extremes sine twoPi .rectangular p2p f duty offset dead skew phase setting hf hs hp (by simp [Plain]) (by simp)
  obtain ⟨w', hw2, hav⟩ := created_average sine twoPi .rectangular p2p f duty offset dead skew phase setting hf hs
    (by simp [Plain])
  rw [hw] at hw2
  simp only [Res.ok.injEq] at hw2
  subst hw2
  have hmx := maxElement_eq w.data hi hhi fun x hx => (hext x hx).2
  have hmn := minElement_eq w.data lo hlo fun x hx => (hext x hx).1
  have hw' := hw
  rw [create_plain sine twoPi _ p2p f duty offset dead skew phase setting hf hs] at hw'
  have hT : 0 < 1 / f := by positivity
  have hne : (1 / f : K) ≠ 0 := hT.ne'
  simp only [vertices, Res.bind, Res.ok.injEq] at hw'
  have hlab : w.label = some .rectangular := by subst hw'; rfl
  have hns : isSampled w setting = false := unsampled_of_size _ _ (by subst hw'; simp; omega)
  have hduty : guessDuty w .rectangular setting = .ok duty := by
    subst hw'
    simp only [guessDuty, dutyOfLabel]
    rw [reached_eq _ 2 (1 / f) _ rfl rfl hT rfl, mul_div_assoc, div_self hne, mul_one]
  refine ⟨w, _, hw, basic_labelled sine twoPi w setting _ 0 hi lo duty hlab hns rfl hmx hmn hduty, rfl, ?_, rfl, rfl, hav⟩
  simpa using hsp

/-- C128: the duty cycle of a secondary rectangular waveform comes back rounded to two decimals. -/
theorem secondary_duty_rounded (sine : K → K) (twoPi p2p f duty offset dead skew phase : K)
    (setting : Nat) (hf : 0 < f) (hs : skew ≤ 0) (hp : 0 ≤ p2p) (hset : 10 < setting) :
    ∃ w p, create sine twoPi .secondaryRectangular p2p f duty offset dead skew phase setting = .ok w ∧
      basicProcessed sine twoPi w setting = .ok p ∧ p.dutyCycle = some (roundFloat duty 2) := by
  obtain ⟨w, hi, lo, hw, ⟨hhi, hlo, hext⟩, hsp, _⟩ :=
    created_extremes sine twoPi .secondaryRectangular p2p f duty offset dead skew phase setting hf hs hp (by simp [Plain])
      (by simp)
  have hmx := maxElement_eq w.data hi hhi fun x hx => (hext x hx).2
  have hmn := minElement_eq w.data lo hlo fun x hx => (hext x hx).1
  have hw' := hw
  rw [create_plain sine twoPi _ p2p f duty offset dead skew phase setting hf hs] at hw'
  have hT : 0 < 1 / f := by positivity
  have hne : (1 / f : K) ≠ 0 := hT.ne'
  simp only [vertices, Res.bind, Res.ok.injEq] at hw'
  have hlab : w.label = some .secondaryRectangular := by subst hw'; rfl
  have hns : isSampled w setting = false := unsampled_of_size _ _ (by subst hw'; simp; omega)
  have hduty : guessDuty w .secondaryRectangular setting = .ok (roundFloat duty 2) := by
    subst hw'
    simp only [guessDuty, dutyOfLabel, dutyOfVertices, hns, Bool.false_eq_true, if_false, span, List.head?_cons,
      List.getLast?_cons_cons, List.getLast?_singleton, List.length_cons, List.length_nil, sub_zero, gt_iff_lt, hT,
      if_true, Nat.reduceAdd, ge_iff_le, Nat.reduceLeDiff, Nat.reduceEqDiff]
    rw [reached_eq _ 2 (1 / f) _ rfl rfl hT rfl, mul_div_assoc, div_self hne, mul_one]; rfl
  exact ⟨w, _, hw, basic_labelled sine twoPi w setting _ 0 hi lo _ hlab hns rfl hmx hmn hduty, rfl⟩

/-- C128: the dead time of a rectangular waveform counts as on time from a duty cycle of one half upwards. -/
theorem deadtime_counted_as_on (sine : K → K) (twoPi p2p f duty dead skew phase : K)
    (setting : Nat) (hf : 0 < f) (hs : skew ≤ 0) (hp : 0 < p2p) (hset : 10 < setting) (h0 : 0 ≤ duty) (h1 : duty ≤ 1) :
    ∃ w p, create sine twoPi .rectangularWithDeadtime p2p f duty 0 dead skew phase setting = .ok w ∧
      basicProcessed sine twoPi w setting = .ok p ∧
      p.dutyCycle = some (if 1 / 2 ≤ duty then duty + dead * f else duty) := by
  rw [create_plain sine twoPi _ p2p f duty 0 dead skew phase setting hf hs]
  have hT : 0 < 1 / f := by positivity
  have hne : (1 / f : K) ≠ 0 := hT.ne'
  have hpd : 0 ≤ p2p * duty := mul_nonneg hp.le h0
  have hpd1 : p2p * duty ≤ p2p := by nlinarith
  generalize hw : (⟨[0, p2p * (1 - duty) + 0, p2p * (1 - duty) + 0, -p2p * duty + 0, -p2p * duty + 0, 0, 0],
    some [0, 0, duty * (1 / f), duty * (1 / f), 1 / f - dead, 1 / f - dead, 1 / f],
    some .rectangularWithDeadtime⟩ : Waveform K) = w
  have hmx := maxElement_eq w.data (p2p * (1 - duty)) (by subst hw; simp) (by
    subst hw
    simp only [List.mem_cons, List.not_mem_nil, or_false, forall_eq_or_imp, forall_eq]
    refine ⟨?_, ?_, ?_, ?_, ?_, ?_, ?_⟩ <;> linarith)
  have hmn := minElement_eq w.data (-p2p * duty) (by subst hw; simp) (by
    subst hw
    simp only [List.mem_cons, List.not_mem_nil, or_false, forall_eq_or_imp, forall_eq]
    refine ⟨?_, ?_, ?_, ?_, ?_, ?_, ?_⟩ <;> linarith)
  have hlab : w.label = some .rectangularWithDeadtime := by subst hw; rfl
  have hns : isSampled w setting = false := unsampled_of_size _ _ (by subst hw; simp; omega)
  have hduty : guessDuty w .rectangularWithDeadtime setting = .ok (if 1 / 2 ≤ duty then duty + dead * f else duty) := by
    have hdv : dutyOfVertices w setting = none := by
      unfold dutyOfVertices
      rw [hns]
      subst hw
      simp [span]
    unfold guessDuty
    simp only [dutyOfLabel, hdv, measuredDuty, hmx, hmn, Res.bind]
    subst hw
    simp only [List.length_cons, List.length_nil, span, List.head?_cons, List.getLast?_cons_cons,
      List.getLast?_singleton, sub_zero, gt_iff_lt, hT, if_true, timeOn, sub_self, ite_self, add_zero, zero_add]
    rw [if_neg (by norm_num)]
    have hm : (p2p * (1 - duty) + -p2p * duty) / 2 = p2p * (1 / 2 - duty) := by ring
    rw [hm]
    have c1 : (p2p * (1 - duty) + p2p * (1 - duty)) / 2 ≥ p2p * (1 / 2 - duty) := by linarith
    have c2 : ¬ (-p2p * duty + -p2p * duty) / 2 ≥ p2p * (1 / 2 - duty) := by
      rw [ge_iff_le, not_le]; linarith
    rw [if_pos c1, if_neg c2]
    by_cases hd : 1 / 2 ≤ duty
    · have c3 : (0 + 0) / 2 ≥ p2p * (1 / 2 - duty) := by
        rw [ge_iff_le, add_zero, zero_div]; exact mul_nonpos_of_nonneg_of_nonpos hp.le (by linarith)
      simp only [add_zero] at c3
      rw [if_pos c3, if_pos hd]
      simp only [Res.ok.injEq]
      field_simp; ring
    · have c3 : ¬ (0 / 2 : K) ≥ p2p * (1 / 2 - duty) := by
        rw [ge_iff_le, not_le, zero_div]; exact mul_pos hp (by linarith [not_le.mp hd])
      rw [if_neg c3, if_neg hd]
      simp only [Res.ok.injEq]
      field_simp; ring
  subst hw
  exact ⟨_, _, rfl, basic_labelled sine twoPi _ setting _ 0 _ _ _ hlab hns rfl hmx hmn hduty, rfl⟩

/-- C128: the duty cycle of a sinusoidal waveform is one half, whatever it was made with. -/
theorem sinusoidal_duty (w : Waveform K) (setting : Nat) : guessDuty w .sinusoidal setting = .ok (1 / 2) := rfl

example : create (K := ℚ) (fun x => x) 6 .triangular 2 100 (1 / 4) 3 0 0 0 128
    = .ok ⟨[2, 4, 2], some [0, 1 / 400, 1 / 100], some .triangular⟩ := by decide +kernel
example : basicProcessed (K := ℚ) (fun x => x) 6 ⟨[2, 4, 2], some [0, 1 / 400, 1 / 100], some .triangular⟩ 128
    = .ok ⟨.triangular, 3, some 2, some 4, some 4, some 2, some (1 / 4), none, none, none, none, none⟩ := by
  decide +kernel
example : create (K := ℚ) (fun x => x) 6 .rectangularWithDeadtime 10 100 (3 / 5) 0 (1 / 1000) 0 0 128
    = .ok ⟨[0, 4, 4, -6, -6, 0, 0], some [0, 0, 3 / 500, 3 / 500, 9 / 1000, 9 / 1000, 1 / 100],
        some .rectangularWithDeadtime⟩ := by decide +kernel

end Verif.Waveforms
