import Verif.Excitation.Frequency
import Mathlib.Algebra.Order.Field.Rat
import Mathlib.Tactic.NormNum
import Mathlib.Tactic.FieldSimp
import Mathlib.Tactic.Ring

/-! # The frequency an operating point is worked out at: specification and theorems -/

namespace Verif.Excitation

set_option linter.unusedSectionVars false
set_option linter.unusedSimpArgs false

variable {K : Type} [Field K] [LinearOrder K] [IsStrictOrderedRing K]

/-! ## Specification -/

/-- `p` is the largest amplitude at a positive frequency, and it is positive. -/
def IsPeak (bins : List (K × K)) (p : K) : Prop :=
  0 < p ∧ (∃ f, 0 < f ∧ (f, p) ∈ bins) ∧ ∀ b ∈ bins, 0 < b.1 → b.2 ≤ p

/-- The frequency `f` is the dominant one: it is there, positive, with an amplitude of at least a hundredth of the
largest; and no other such has a larger product of frequency and amplitude. -/
def Dominant (bins : List (K × K)) (f : K) : Prop :=
  ∃ p a : K, IsPeak bins p ∧ 0 < f ∧ (f, a) ∈ bins ∧ p / 100 ≤ a ∧
    ∀ b ∈ bins, 0 < b.1 → p / 100 ≤ b.2 → b.1 * b.2 ≤ f * a

/-- `a` is the amplitude at the positive frequency closest to `target`. -/
def Closest (bins : List (K × K)) (target a : K) : Prop :=
  ∃ f, 0 < f ∧ (f, a) ∈ bins ∧ ∀ b ∈ bins, 0 < b.1 → |f - target| ≤ |b.1 - target|

/-! ## Lemmas -/

theorem peak_fold (bins : List (K × K)) : ∀ p0 : K,
    let p := bins.foldl (fun peak b => if b.1 > 0 ∧ b.2 > peak then b.2 else peak) p0
    p0 ≤ p ∧ (∀ b ∈ bins, 0 < b.1 → b.2 ≤ p) ∧ (p = p0 ∨ ∃ f, 0 < f ∧ (f, p) ∈ bins) := by
  induction bins with
  | nil => intro p0; simp
  | cons b l ih =>
    intro p0
    simp only [List.foldl_cons]
    obtain ⟨h1, h2, h3⟩ := ih (if b.1 > 0 ∧ b.2 > p0 then b.2 else p0)
    by_cases hb : b.1 > 0 ∧ b.2 > p0
    · rw [if_pos hb] at h1 h2 h3 ⊢
      refine ⟨hb.2.le.trans h1, ?_, ?_⟩
      · intro c hc hc0
        rcases List.mem_cons.mp hc with rfl | hc
        · exact h1
        · exact h2 c hc hc0
      · rcases h3 with h3 | ⟨f, hf, hm⟩
        · right
          refine ⟨b.1, hb.1, ?_⟩
          rw [h3]; simp
        · exact Or.inr ⟨f, hf, List.mem_cons_of_mem _ hm⟩
    · rw [if_neg hb] at h1 h2 h3 ⊢
      refine ⟨h1, ?_, ?_⟩
      · intro c hc hc0
        rcases List.mem_cons.mp hc with rfl | hc
        · have : ¬ c.2 > p0 := fun h => hb ⟨hc0, h⟩
          exact (not_lt.mp this).trans h1
        · exact h2 c hc hc0
      · rcases h3 with h3 | ⟨f, hf, hm⟩
        · exact Or.inl h3
        · exact Or.inr ⟨f, hf, List.mem_cons_of_mem _ hm⟩

theorem peak_spec (bins : List (K × K)) :
    (0 < peakAmplitude bins ∧ IsPeak bins (peakAmplitude bins)) ∨
      (peakAmplitude bins = 0 ∧ ∀ b ∈ bins, 0 < b.1 → b.2 ≤ 0) := by
  obtain ⟨h1, h2, h3⟩ := peak_fold bins 0
  rw [show bins.foldl (fun peak b => if b.1 > 0 ∧ b.2 > peak then b.2 else peak) 0 = peakAmplitude bins from rfl]
    at h1 h2 h3
  rcases lt_or_eq_of_le h1 with h | h
  · left
    refine ⟨h, h, ?_, h2⟩
    rcases h3 with h3 | h3
    · exact absurd h3.symm h.ne
    · exact h3
  · right
    exact ⟨h.symm, fun b hb hb0 => by rw [h]; exact h2 b hb hb0⟩

theorem peak_unique {bins : List (K × K)} {p q : K} (hp : IsPeak bins p) (hq : IsPeak bins q) : p = q := by
  obtain ⟨f, hf, hfm⟩ := hp.2.1
  obtain ⟨g, hg, hgm⟩ := hq.2.1
  exact le_antisymm (hq.2.2 _ hfm hf) (hp.2.2 _ hgm hg)

theorem score_fold (threshold : K) (bins : List (K × K)) : ∀ best : K × K,
    let r := bins.foldl (scoreStep threshold) best
    best.1 ≤ r.1 ∧ (∀ b ∈ bins, 0 < b.1 → threshold ≤ b.2 → b.1 * b.2 ≤ r.1) ∧
      (r = best ∨ ∃ a, 0 < r.2 ∧ (r.2, a) ∈ bins ∧ threshold ≤ a ∧ r.1 = r.2 * a ∧ best.1 < r.1) := by
  induction bins with
  | nil => intro best; simp
  | cons b l ih =>
    intro best
    simp only [List.foldl_cons]
    obtain ⟨h1, h2, h3⟩ := ih (scoreStep threshold best b)
    have hstep : (scoreStep threshold best b = best ∧ (0 < b.1 → threshold ≤ b.2 → b.1 * b.2 ≤ best.1)) ∨
        (scoreStep threshold best b = (b.1 * b.2, b.1) ∧ 0 < b.1 ∧ threshold ≤ b.2 ∧ best.1 < b.1 * b.2) := by
      unfold scoreStep
      by_cases c1 : b.1 ≤ 0
      · rw [if_pos c1]; exact Or.inl ⟨rfl, fun h => absurd h (not_lt.mpr c1)⟩
      · rw [if_neg c1]
        by_cases c2 : b.2 < threshold
        · rw [if_pos c2]; exact Or.inl ⟨rfl, fun _ h => absurd h (not_le.mpr c2)⟩
        · rw [if_neg c2]
          by_cases c3 : b.1 * b.2 > best.1
          · rw [if_pos c3]; exact Or.inr ⟨rfl, not_le.mp c1, not_lt.mp c2, c3⟩
          · rw [if_neg c3]; exact Or.inl ⟨rfl, fun _ _ => not_lt.mp c3⟩
    rcases hstep with ⟨e, hs⟩ | ⟨e, hb1, hb2, hb3⟩
    · rw [e] at h1 h2 h3 ⊢
      refine ⟨h1, ?_, ?_⟩
      · intro c hc c0 ct
        rcases List.mem_cons.mp hc with rfl | hc
        · exact (hs c0 ct).trans h1
        · exact h2 c hc c0 ct
      · rcases h3 with h3 | ⟨a, ha, hm, hr⟩
        · exact Or.inl h3
        · exact Or.inr ⟨a, ha, List.mem_cons_of_mem _ hm, hr⟩
    · rw [e] at h1 h2 h3 ⊢
      simp only at h1 h2 h3
      refine ⟨hb3.le.trans h1, ?_, ?_⟩
      · intro c hc c0 ct
        rcases List.mem_cons.mp hc with rfl | hc
        · exact h1
        · exact h2 c hc c0 ct
      · right
        rcases h3 with h3 | ⟨a, ha, hm, ht, hr, hlt⟩
        · refine ⟨b.2, ?_, ?_, hb2, ?_, ?_⟩
          · rw [h3]; exact hb1
          · rw [h3]; simp
          · rw [h3]
          · rw [h3]; exact hb3
        · exact ⟨a, ha, List.mem_cons_of_mem _ hm, ht, hr, hb3.trans hlt⟩

theorem closest_fold (target : K) (bins : List (K × K)) : ∀ best : Option K × K,
    let r := bins.foldl (closestStep target) best
    (∀ b ∈ bins, 0 < b.1 → ∃ d, r.1 = some d ∧ d ≤ |b.1 - target|) ∧
      (∀ d0, best.1 = some d0 → ∃ d, r.1 = some d ∧ d ≤ d0) ∧
      (r = best ∨ ∃ f, 0 < f ∧ (f, r.2) ∈ bins ∧ r.1 = some |f - target|) := by
  induction bins with
  | nil => intro best; simp only [List.foldl_nil]; exact ⟨by simp, fun d h => ⟨d, h, le_refl d⟩, Or.inl trivial⟩
  | cons b l ih =>
    intro best
    simp only [List.foldl_cons]
    obtain ⟨h1, h2, h3⟩ := ih (closestStep target best b)
    have hstep : (closestStep target best b = best ∧ (0 < b.1 → ∃ d, best.1 = some d ∧ d ≤ |b.1 - target|)) ∨
        (closestStep target best b = (some |b.1 - target|, b.2) ∧ 0 < b.1 ∧
          ∀ d, best.1 = some d → |b.1 - target| < d) := by
      unfold closestStep
      by_cases c1 : b.1 ≤ 0
      · rw [if_pos c1]; exact Or.inl ⟨rfl, fun h => absurd h (not_lt.mpr c1)⟩
      · rw [if_neg c1]
        cases hd : best.1 with
        | none => exact Or.inr ⟨rfl, not_le.mp c1, fun d h => by simp at h⟩
        | some d =>
          simp only
          by_cases c2 : |b.1 - target| < d
          · rw [if_pos c2]
            refine Or.inr ⟨rfl, not_le.mp c1, fun e he => ?_⟩
            simp only [Option.some.injEq] at he; rw [← he]; exact c2
          · rw [if_neg c2]; exact Or.inl ⟨rfl, fun _ => ⟨d, rfl, not_lt.mp c2⟩⟩
    rcases hstep with ⟨e, hs⟩ | ⟨e, hb1, hb2⟩
    · rw [e] at h1 h2 h3 ⊢
      refine ⟨?_, h2, ?_⟩
      · intro c hc c0
        rcases List.mem_cons.mp hc with rfl | hc
        · obtain ⟨d, hd, hle⟩ := hs c0
          obtain ⟨d', hd', hle'⟩ := h2 d hd
          exact ⟨d', hd', hle'.trans hle⟩
        · exact h1 c hc c0
      · rcases h3 with h3 | ⟨f, hf, hm, hr⟩
        · exact Or.inl h3
        · exact Or.inr ⟨f, hf, List.mem_cons_of_mem _ hm, hr⟩
    · rw [e] at h1 h2 h3 ⊢
      obtain ⟨d', hd', hle'⟩ := h2 _ rfl
      refine ⟨?_, ?_, ?_⟩
      · intro c hc c0
        rcases List.mem_cons.mp hc with rfl | hc
        · exact ⟨d', hd', hle'⟩
        · exact h1 c hc c0
      · intro d0 hd0
        exact ⟨d', hd', hle'.trans (hb2 d0 hd0).le⟩
      · right
        rcases h3 with h3 | ⟨f, hf, hm, hr⟩
        · refine ⟨b.1, hb1, ?_, ?_⟩
          · rw [h3]; simp
          · rw [h3]
        · exact ⟨f, hf, List.mem_cons_of_mem _ hm, hr⟩

/-! ## Theorems -/

/-- **C239.** The effective frequency of a signal is zero, or the dominant one of its harmonics. It is zero exactly
when there are no harmonics, or not as many amplitudes as frequencies, or fewer than two, or no amplitude is
positive at a positive frequency. -/
theorem effective_spec (signal : Option (Harmonics K)) :
    (0 < effective signal ∧ ∃ h, signal = some h ∧ h.frequencies.length = h.amplitudes.length ∧
        2 ≤ h.frequencies.length ∧ Dominant h.bins (effective signal)) ∨
      (effective signal = 0 ∧ ∀ h, signal = some h → h.frequencies.length = h.amplitudes.length →
        2 ≤ h.frequencies.length → ∀ b ∈ h.bins, 0 < b.1 → b.2 ≤ 0) := by
  cases signal with
  | none => exact Or.inr ⟨rfl, fun h e => by simp at e⟩
  | some h =>
    by_cases hc : h.frequencies.length ≠ h.amplitudes.length ∨ h.frequencies.length < 2
    · right
      refine ⟨by simp only [effective]; rw [if_pos hc], ?_⟩
      intro h' e h1 h2
      simp only [Option.some.injEq] at e
      subst e
      rcases hc with hc | hc
      · exact absurd h1 hc
      · omega
    · have hlen : h.frequencies.length = h.amplitudes.length := by
        by_contra hx; exact hc (Or.inl hx)
      have h2 : 2 ≤ h.frequencies.length := by
        by_contra hx; exact hc (Or.inr (by omega))
      have he : effective (some h) = if peakAmplitude h.bins ≤ 0 then 0
          else (h.bins.foldl (scoreStep (peakAmplitude h.bins * (1 / 100))) (0, 0)).2 := by
        simp only [effective]; rw [if_neg hc]
      rcases peak_spec h.bins with ⟨hp, hpk⟩ | ⟨hp, hall⟩
      · left
        rw [he, if_neg (not_le.mpr hp)]
        obtain ⟨s1, s2, s3⟩ := score_fold (peakAmplitude h.bins * (1 / 100)) h.bins (0, 0)
        simp only at s1 s2 s3
        have ediv : peakAmplitude h.bins * (1 / 100) = peakAmplitude h.bins / 100 := by ring
        rcases s3 with s3 | ⟨a, ha, hm, ht, hr, hlt⟩
        · exfalso
          obtain ⟨f, hf, hfm⟩ := hpk.2.1
          have := s2 _ hfm hf (by rw [ediv]; simp only; linarith)
          rw [s3] at this
          simp only at this
          have := mul_pos hf hp
          linarith
        · refine ⟨ha, h, rfl, hlen, h2, peakAmplitude h.bins, a, hpk, ha, hm, ?_, ?_⟩
          · rw [← ediv]; exact ht
          · intro b hb b0 bt
            rw [← hr]
            exact s2 b hb b0 (by rw [ediv]; exact bt)
      · right
        refine ⟨by rw [he, if_pos hp.le], ?_⟩
        intro h' e _ _
        simp only [Option.some.injEq] at e
        subst e
        exact hall

/-- **C239.** Where the signal has a positive frequency, the amplitude at a frequency is that at the closest of its
positive frequencies. -/
theorem amplitudeAt_spec (h : Harmonics K) (target : K) (ht : 0 < target)
    (hlen : h.frequencies.length = h.amplitudes.length) (hpos : ∃ b ∈ h.bins, 0 < b.1) :
    Closest h.bins target (amplitudeAt (some h) target) := by
  obtain ⟨b, hb, hb0⟩ := hpos
  cases ha : h.amplitudes with
  | nil =>
    exfalso
    simp only [Harmonics.bins, ha, List.zip_nil_right, List.not_mem_nil] at hb
  | cons a l =>
    have he : amplitudeAt (some h) target = (h.bins.foldl (closestStep target) (none, a)).2 := by
      simp only [amplitudeAt, ha]
      rw [if_neg (not_le.mpr ht), if_neg (by rw [ha] at hlen; simpa using hlen)]
    obtain ⟨h1, -, h3⟩ := closest_fold target h.bins (none, a)
    obtain ⟨d, hd, -⟩ := h1 b hb hb0
    rcases h3 with h3 | ⟨f, hf, hm, hr⟩
    · rw [h3] at hd; simp at hd
    · refine ⟨f, hf, by rw [he]; exact hm, ?_⟩
      intro c hc c0
      obtain ⟨d', hd', hle⟩ := h1 c hc c0
      rw [hr] at hd'
      simp only [Option.some.injEq] at hd'
      rw [hd']; exact hle

theorem settle_signals (t : Tone K) : (settle t).current = t.current ∧ (settle t).voltage = t.voltage := by
  cases hs : t.stated with
  | notFinite => simp only [settle, hs]; split_ifs <;> exact ⟨rfl, rfl⟩
  | number f => simp only [settle, hs]; split_ifs <;> exact ⟨rfl, rfl⟩

theorem driving_congr {t u : Tone K} (h1 : t.current = u.current) (h2 : t.voltage = u.voltage) :
    driving t = driving u := by
  unfold driving; rw [h1, h2]

/-- What is taken as driving is the current with a positive effective frequency, or else the voltage. -/
theorem driving_pos (t : Tone K) (h : 0 < (driving t).1) :
    effective (driving t).2 = (driving t).1 ∧ (t.current = some (driving t).2 ∨ t.voltage = some (driving t).2) := by
  unfold driving at h ⊢
  simp only at h ⊢
  by_cases hc : (t.current.map effective).getD 0 > 0
  · rw [if_pos hc] at h ⊢
    cases e : t.current with
    | none => rw [e] at hc; simp at hc
    | some s => simp
  · rw [if_neg hc] at h ⊢
    cases e : t.voltage with
    | none => rw [e] at h; simp at h
    | some s => simp

/-- **C239.** A frequency of 400 Hz or more is taken as stated. -/
theorem stated_high (t : Tone K) (f : K) (hs : t.stated = .number f) (hf : 400 ≤ f) : settle t = t := by
  simp only [settle, hs]
  rw [if_neg (by linarith), if_pos hf]

/-- **C239.** A positive frequency is replaced only when it is below 400 Hz, and only by one that is of at least
400 Hz, dominant among the harmonics of the current or of the voltage, and whose amplitude is more than twice that
at the frequency stated. The signals are left as they were. -/
theorem replaced_by (t : Tone K) (f : K) (hs : t.stated = .number f) (hf : 0 < f) (hne : settle t ≠ t) :
    ∃ (g : K) (h : Harmonics K) (aStated aNew : K), settle t = { t with stated := .number g } ∧ f < 400 ∧ 400 ≤ g ∧
      (t.current = some (some h) ∨ t.voltage = some (some h)) ∧ Dominant h.bins g ∧ Closest h.bins f aStated ∧
      Closest h.bins g aNew ∧ 2 * aStated < aNew := by
  have hlt : f < 400 := by
    by_contra hx
    exact hne (stated_high t f hs (not_lt.mp hx))
  have he : settle t = if (driving t).1 ≥ 400 ∧ (driving t).1 > f ∧
        amplitudeAt (driving t).2 f < 1 / 2 * amplitudeAt (driving t).2 (driving t).1 then
      { t with stated := .number (driving t).1 } else t := by
    simp only [settle, hs]
    rw [if_neg (not_le.mpr hf), if_neg (not_le.mpr hlt)]
  by_cases hc : (driving t).1 ≥ 400 ∧ (driving t).1 > f ∧
        amplitudeAt (driving t).2 f < 1 / 2 * amplitudeAt (driving t).2 (driving t).1
  · rw [if_pos hc] at he
    have hd : 0 < (driving t).1 := hf.trans hc.2.1
    obtain ⟨hd1, hd2⟩ := driving_pos t hd
    rcases effective_spec (driving t).2 with ⟨hp, h, hh, hl1, hl2, hdom⟩ | ⟨h0, -⟩
    · rw [hd1] at hdom
      have hpos : ∃ b ∈ h.bins, 0 < b.1 := by
        obtain ⟨p, a, -, hg, hm, -⟩ := hdom
        exact ⟨_, hm, hg⟩
      refine ⟨(driving t).1, h, amplitudeAt (driving t).2 f, amplitudeAt (driving t).2 (driving t).1, he, hlt, hc.1,
        ?_, hdom, ?_, ?_, by linarith [hc.2.2]⟩
      · rw [hh] at hd2; exact hd2
      · rw [hh]; exact amplitudeAt_spec h f hf hl1 hpos
      · rw [hh]; exact amplitudeAt_spec h _ hd hl1 hpos
    · rw [hd1] at h0; linarith
  · rw [if_neg hc] at he; exact absurd he hne

/-- **C239.** A frequency that is not positive, or not a number, is replaced by the dominant one of the current, or
of the voltage when the current has none; and is left alone when neither has one. -/
theorem repaired (t : Tone K) (hs : t.stated = .notFinite ∨ ∃ f, t.stated = .number f ∧ f ≤ 0) :
    (∃ (g : K) (h : Harmonics K), settle t = { t with stated := .number g } ∧ 0 < g ∧ Dominant h.bins g ∧
        (t.current = some (some h) ∨ t.voltage = some (some h))) ∨
      (settle t = t ∧ ∀ s : Option (Harmonics K), t.current = some s ∨ t.voltage = some s → effective s = 0) := by
  have he : settle t = if (driving t).1 > 0 then { t with stated := .number (driving t).1 } else t := by
    rcases hs with hs | ⟨f, hs, hf⟩
    · simp only [settle, hs]
    · simp only [settle, hs]; rw [if_pos hf]
  by_cases hc : (driving t).1 > 0
  · left
    rw [if_pos hc] at he
    obtain ⟨hd1, hd2⟩ := driving_pos t hc
    rcases effective_spec (driving t).2 with ⟨hp, h, hh, hl1, hl2, hdom⟩ | ⟨h0, -⟩
    · rw [hd1] at hdom
      rw [hh] at hd2
      exact ⟨(driving t).1, h, he, hc, hdom, hd2⟩
    · rw [hd1] at h0; exact absurd hc (by rw [h0]; exact lt_irrefl 0)
  · right
    rw [if_neg hc] at he
    refine ⟨he, ?_⟩
    intro s h
    have hnn : ∀ s : Option (Harmonics K), 0 ≤ effective s := by
      intro s
      rcases effective_spec s with ⟨hp, -⟩ | ⟨h0, -⟩
      · exact hp.le
      · exact h0.ge
    have hcur : ¬ (t.current.map effective).getD 0 > 0 := by
      intro hx
      apply hc
      unfold driving
      simp only
      rw [if_pos hx]; exact hx
    have hvol : ¬ (t.voltage.map effective).getD 0 > 0 := by
      intro hx
      apply hc
      unfold driving
      simp only
      rw [if_neg hcur]; exact hx
    rcases h with h | h
    · rw [h] at hcur
      exact le_antisymm (not_lt.mp hcur) (hnn s)
    · rw [h] at hvol
      exact le_antisymm (not_lt.mp hvol) (hnn s)

/-- **C239.** Working the frequency out again changes nothing. -/
theorem settle_again (t : Tone K) : settle (settle t) = settle t := by
  obtain ⟨h1, h2⟩ := settle_signals t
  have hd : driving (settle t) = driving t := driving_congr h1 h2
  cases hs : t.stated with
  | notFinite =>
    by_cases hc : (driving t).1 > 0
    · have he : settle t = { t with stated := .number (driving t).1 } := by
        simp only [settle, hs]; rw [if_pos hc]
      have hst : (settle t).stated = .number (driving t).1 := by rw [he]
      by_cases hb : 400 ≤ (driving t).1
      · exact stated_high _ _ hst hb
      · have : settle (settle t) = if (driving (settle t)).1 ≥ 400 ∧ (driving (settle t)).1 > (driving t).1 ∧
            amplitudeAt (driving (settle t)).2 (driving t).1 <
              1 / 2 * amplitudeAt (driving (settle t)).2 (driving (settle t)).1 then
            { settle t with stated := .number (driving (settle t)).1 } else settle t := by
          conv_lhs => rw [settle, hst]
          simp only
          rw [if_neg (not_le.mpr hc), if_neg hb]
        rw [this, if_neg]
        rw [hd]
        exact fun hx => lt_irrefl _ hx.2.1
    · have he : settle t = t := by simp only [settle, hs]; rw [if_neg hc]
      rw [he, he]
  | number f =>
    by_cases hf : f ≤ 0
    · by_cases hc : (driving t).1 > 0
      · have he : settle t = { t with stated := .number (driving t).1 } := by
          simp only [settle, hs]; rw [if_pos hf, if_pos hc]
        have hst : (settle t).stated = .number (driving t).1 := by rw [he]
        by_cases hb : 400 ≤ (driving t).1
        · exact stated_high _ _ hst hb
        · have : settle (settle t) = if (driving (settle t)).1 ≥ 400 ∧ (driving (settle t)).1 > (driving t).1 ∧
              amplitudeAt (driving (settle t)).2 (driving t).1 <
                1 / 2 * amplitudeAt (driving (settle t)).2 (driving (settle t)).1 then
              { settle t with stated := .number (driving (settle t)).1 } else settle t := by
            conv_lhs => rw [settle, hst]
            simp only
            rw [if_neg (not_le.mpr hc), if_neg hb]
          rw [this, if_neg]
          rw [hd]
          exact fun hx => lt_irrefl _ hx.2.1
      · have he : settle t = t := by simp only [settle, hs]; rw [if_pos hf, if_neg hc]
        rw [he, he]
    · by_cases hne : settle t = t
      · rw [hne, hne]
      · obtain ⟨g, h, a, b, he, -, hg, -⟩ := replaced_by t f hs (not_le.mp hf) hne
        exact stated_high (settle t) g (by rw [he]) hg

/-- A current with 50 Hz of amplitude 1 and 100 kHz of amplitude 5, stated at 50 Hz. -/
def pfc : Tone ℚ :=
  { stated := .number 50, current := some (some ⟨[0, 1, 5], [0, 50, 100000]⟩), voltage := none }

/-- The same with an amplitude of 3 / 2 at 100 kHz: the frequency stated stays. -/
def lineTransformer : Tone ℚ :=
  { stated := .number 50, current := some (some ⟨[0, 1, 3 / 2], [0, 50, 100000]⟩), voltage := none }

example : settle pfc = { pfc with stated := .number 100000 } := by decide +kernel
example : settle pfc ≠ pfc := by decide +kernel
example : settle lineTransformer = lineTransformer := by decide +kernel
example : effective (K := ℚ) (some ⟨[0, 1, 5], [0, 50, 100000]⟩) = 100000 := by decide +kernel
example : settle (K := ℚ) { pfc with stated := .notFinite } = { pfc with stated := .number 100000 } := by
  decide +kernel
/-- Below 400 Hz another frequency of the harmonics is not taken, however large. -/
example : settle (K := ℚ) { stated := .number 50, current := some (some ⟨[0, 1, 50], [0, 50, 350]⟩), voltage := none }
    = { stated := .number 50, current := some (some ⟨[0, 1, 50], [0, 50, 350]⟩), voltage := none } := by
  decide +kernel

end Verif.Excitation
