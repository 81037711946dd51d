import Verif.Waveforms.Props

/-! # Lemmas on sampling -/

namespace Verif.Waveforms

open Verif.Round (roundFloat)

set_option linter.unusedSectionVars false
set_option linter.unusedSimpArgs false

variable {K : Type} [Field K] [LinearOrder K] [IsStrictOrderedRing K] [FloorRing K]

/-- A point lies on the line from one vertex to the next: between them in time, and at the value the straight
line has there. Where two vertices have the same time any value between theirs will do. -/
def OnLine (d0 t0 d1 t1 t v : K) : Prop :=
  t0 ≤ t ∧ t ≤ t1 ∧ v * (t1 - t0) = d0 * (t1 - t) + d1 * (t - t0) ∧ min d0 d1 ≤ v ∧ v ≤ max d0 d1

/-- A point lies on the waveform that joins its vertices by straight lines. -/
def OnWaveform (data ts : List K) (t v : K) : Prop :=
  ∃ (i : Nat) (d0 d1 t0 t1 : K), data[i]? = some d0 ∧ data[i + 1]? = some d1 ∧ ts[i]? = some t0 ∧
    ts[i + 1]? = some t1 ∧ OnLine d0 t0 d1 t1 t v

theorem onWaveform_tail (a b : K) (data ts : List K) (t v : K) (h : OnWaveform data ts t v) :
    OnWaveform (a :: data) (b :: ts) t v := by
  obtain ⟨i, d0, d1, t0, t1, h1, h2, h3, h4, h5⟩ := h
  exact ⟨i + 1, d0, d1, t0, t1, by simpa using h1, by simpa using h2, by simpa using h3, by simpa using h4, h5⟩

theorem lerp_onLine (d0 t0 d1 t1 t : K) (h0 : t0 ≤ t) (h1 : t ≤ t1) (hne : t1 ≠ t0) :
    OnLine d0 t0 d1 t1 t (d0 + (t - t0) / (t1 - t0) * (d1 - d0)) := by
  have hpos : 0 < t1 - t0 := sub_pos.mpr (lt_of_le_of_ne (le_trans h0 h1) (Ne.symm hne))
  have hq0 : 0 ≤ (t - t0) / (t1 - t0) := div_nonneg (sub_nonneg.mpr h0) hpos.le
  have hq1 : (t - t0) / (t1 - t0) ≤ 1 := by rw [div_le_one hpos]; linarith
  refine ⟨h0, h1, ?_, ?_, ?_⟩
  · field_simp; ring
  · generalize (t - t0) / (t1 - t0) = q at hq0 hq1
    rcases le_total d0 d1 with h | h
    · rw [min_eq_left h]; nlinarith [mul_nonneg hq0 (sub_nonneg.mpr h)]
    · rw [min_eq_right h]; nlinarith [mul_nonneg (sub_nonneg.mpr hq1) (sub_nonneg.mpr h)]
  · generalize (t - t0) / (t1 - t0) = q at hq0 hq1
    rcases le_total d0 d1 with h | h
    · rw [max_eq_right h]; nlinarith [mul_nonneg (sub_nonneg.mpr hq1) (sub_nonneg.mpr h)]
    · rw [max_eq_left h]; nlinarith [mul_nonneg hq0 (sub_nonneg.mpr h)]

theorem interpolate_on (t : K) : ∀ (data ts : List K) (v : K), interpolate t data ts = .value v →
    OnWaveform data ts t v
  | [], ts, v, h => by simp [interpolate] at h
  | [d], ts, v, h => by simp [interpolate] at h
  | d0 :: d1 :: ds, [], v, h => by simp [interpolate] at h
  | d0 :: d1 :: ds, [a], v, h => by simp [interpolate] at h
  | d0 :: d1 :: ds, t0 :: t1 :: ts, v, h => by
    rw [interpolate] at h
    by_cases h0 : t1 = t0
    · rw [if_pos h0] at h
      by_cases h1 : t = t0
      · rw [if_pos h1] at h
        simp only [Found.value.injEq] at h
        subst h h1 h0
        exact ⟨0, d0, d1, t1, t1, rfl, rfl, rfl, rfl, le_refl _, le_refl _, by simp, min_le_left _ _, le_max_left _ _⟩
      · rw [if_neg h1] at h
        exact onWaveform_tail _ _ _ _ _ _ (interpolate_on t (d1 :: ds) (t1 :: ts) v h)
    · rw [if_neg h0] at h
      by_cases h1 : t0 ≤ t ∧ t ≤ t1
      · rw [if_pos h1] at h
        simp only [Found.value.injEq] at h
        subst h
        exact ⟨0, d0, d1, t0, t1, rfl, rfl, rfl, rfl, lerp_onLine d0 t0 d1 t1 t h1.1 h1.2 h0⟩
      · rw [if_neg h1] at h
        exact onWaveform_tail _ _ _ _ _ _ (interpolate_on t (d1 :: ds) (t1 :: ts) v h)

theorem interpolate_finds (t : K) : ∀ (data ts : List K) (z : K), ts.length = data.length → 2 ≤ data.length →
    ts.getLast? = some z → (∀ a, ts.head? = some a → a ≤ t) → t ≤ z →
    ∃ v, interpolate t data ts = .value v
  | [], ts, z, _, h, _, _, _ => by simp at h
  | [d], ts, z, _, h, _, _, _ => by simp at h
  | d0 :: d1 :: ds, [], z, h, _, _, _, _ => by simp at h
  | d0 :: d1 :: ds, [a], z, h, _, _, _, _ => by simp at h
  | d0 :: d1 :: ds, t0 :: t1 :: ts, z, hl, _, hz, h0, h1 => by
    have ht0 := h0 t0 rfl
    rw [interpolate]
    by_cases e : t1 = t0
    · rw [if_pos e]
      by_cases e1 : t = t0
      · rw [if_pos e1]; exact ⟨_, rfl⟩
      · rw [if_neg e1]
        cases ds with
        | nil =>
          have : ts = [] := by simpa using hl
          subst this
          simp at hz
          exact absurd (le_antisymm (by rw [← e, hz]; exact h1) ht0) e1
        | cons d2 ds =>
          exact interpolate_finds t (d1 :: d2 :: ds) (t1 :: ts) z (by simpa using hl) (by simp) (by simpa using hz)
            (fun a ha => by simp at ha; rw [← ha, e]; exact ht0) h1
    · rw [if_neg e]
      by_cases e1 : t ≤ t1
      · rw [if_pos ⟨ht0, e1⟩]; exact ⟨_, rfl⟩
      · rw [if_neg (fun c => e1 c.2)]
        cases ds with
        | nil =>
          have : ts = [] := by simpa using hl
          subst this
          simp at hz
          exact absurd (by rw [hz]; exact h1) e1
        | cons d2 ds =>
          exact interpolate_finds t (d1 :: d2 :: ds) (t1 :: ts) z (by simpa using hl) (by simp) (by simpa using hz)
            (fun a ha => by simp at ha; rw [← ha]; exact (not_le.mp e1).le) h1

/-- Nothing is found at a time earlier than all, or later than all. -/
theorem interpolate_misses (t : K) : ∀ (data ts : List K), data.length ≤ ts.length →
    ((∀ a ∈ ts, t < a) ∨ (∀ a ∈ ts, a < t)) → interpolate t data ts = .nothing
  | [], ts, _, _ => by simp [interpolate]
  | [d], ts, _, _ => by simp [interpolate]
  | d0 :: d1 :: ds, [], h, _ => by simp at h
  | d0 :: d1 :: ds, [a], h, _ => by simp at h
  | d0 :: d1 :: ds, t0 :: t1 :: ts, hl, h => by
    have ih := interpolate_misses t (d1 :: ds) (t1 :: ts) (by simpa using hl)
      (by rcases h with h | h
          · exact Or.inl fun a ha => h a (List.mem_cons_of_mem _ ha)
          · exact Or.inr fun a ha => h a (List.mem_cons_of_mem _ ha))
    have hne : t ≠ t0 := by
      rcases h with h | h
      · exact (h t0 (by simp)).ne
      · exact (h t0 (by simp)).ne'
    have hout : ¬ (t0 ≤ t ∧ t ≤ t1) := by
      rcases h with h | h
      · exact fun c => absurd c.1 (not_le.mpr (h t0 (by simp)))
      · exact fun c => absurd c.2 (not_le.mpr (h t1 (by simp)))
    rw [interpolate]
    by_cases e : t1 = t0
    · rw [if_pos e, if_neg hne, ih]
    · rw [if_neg e, if_neg hout, ih]

/-- What an affine change of the values does to what is found. -/
def Found.affine (k c : K) : Found K → Found K
  | .value v => .value (v * k + c)
  | .nothing => .nothing
  | .ub => .ub

theorem interpolate_affine (k c t : K) : ∀ (data ts : List K),
    interpolate t (data.map fun d => d * k + c) ts = (interpolate t data ts).affine k c
  | [], ts => by simp [interpolate, Found.affine]
  | [d], ts => by simp [interpolate, Found.affine]
  | d0 :: d1 :: ds, [] => by simp [interpolate, Found.affine]
  | d0 :: d1 :: ds, [a] => by simp [interpolate, Found.affine]
  | d0 :: d1 :: ds, t0 :: t1 :: ts => by
    have ih := interpolate_affine k c t (d1 :: ds) (t1 :: ts)
    simp only [List.map_cons] at ih ⊢
    rw [interpolate, interpolate]
    by_cases e : t1 = t0
    · rw [if_pos e, if_pos e]
      by_cases e1 : t = t0
      · rw [if_pos e1, if_pos e1]; rfl
      · rw [if_neg e1, if_neg e1]; exact ih
    · rw [if_neg e, if_neg e]
      by_cases e1 : t0 ≤ t ∧ t ≤ t1
      · rw [if_pos e1, if_pos e1]; simp only [Found.affine, Found.value.injEq]; ring
      · rw [if_neg e1, if_neg e1]; exact ih

/-- The sum of two things found. -/
def Found.add : Found K → Found K → Found K
  | .value a, .value b => .value (a + b)
  | .ub, _ => .ub
  | _, .ub => .ub
  | _, _ => .nothing

theorem interpolate_added (t : K) : ∀ (a b ts : List K), a.length = b.length →
    interpolate t (List.zipWith (· + ·) a b) ts = (interpolate t a ts).add (interpolate t b ts)
  | [], b, ts, h => by
    rw [List.length_nil, eq_comm, List.length_eq_zero_iff] at h; subst h; simp [interpolate, Found.add]
  | [x], b, ts, h => by
    obtain ⟨y, rfl⟩ := List.length_eq_one_iff.mp (by simpa using h.symm)
    simp [interpolate, Found.add]
  | x0 :: x1 :: xs, [], ts, h => by simp at h
  | x0 :: x1 :: xs, [y], ts, h => by simp at h
  | x0 :: x1 :: xs, y0 :: y1 :: ys, [], h => by simp [interpolate, Found.add]
  | x0 :: x1 :: xs, y0 :: y1 :: ys, [t0], h => by simp [interpolate, Found.add]
  | x0 :: x1 :: xs, y0 :: y1 :: ys, t0 :: t1 :: ts, h => by
    have ih := interpolate_added t (x1 :: xs) (y1 :: ys) (t1 :: ts) (by simpa using h)
    simp only [List.zipWith_cons_cons] at ih ⊢
    rw [interpolate, interpolate, interpolate]
    by_cases e : t1 = t0
    · rw [if_pos e, if_pos e, if_pos e]
      by_cases e1 : t = t0
      · rw [if_pos e1, if_pos e1, if_pos e1]; rfl
      · rw [if_neg e1, if_neg e1, if_neg e1]; exact ih
    · rw [if_neg e, if_neg e, if_neg e]
      by_cases e1 : t0 ≤ t ∧ t ≤ t1
      · rw [if_pos e1, if_pos e1, if_pos e1]; simp only [Found.add, Found.value.injEq]; ring
      · rw [if_neg e1, if_neg e1, if_neg e1]; exact ih

theorem sampleAll_affine (k c : K) (data time : List K) : ∀ ts : List K,
    sampleAll (data.map fun d => d * k + c) time ts =
      (sampleAll data time ts).bind fun vs => .ok (vs.map fun d => d * k + c)
  | [] => rfl
  | t :: ts => by
    rw [sampleAll, sampleAll, interpolate_affine, sampleAll_affine k c data time ts]
    cases interpolate t data time <;> simp only [Found.affine, Res.bind]
    cases sampleAll data time ts <;> simp only [Res.bind, List.map_cons]

theorem sampleAll_added (a b time : List K) (h : a.length = b.length) : ∀ (ts va vb : List K),
    sampleAll a time ts = .ok va → sampleAll b time ts = .ok vb →
    sampleAll (List.zipWith (· + ·) a b) time ts = .ok (List.zipWith (· + ·) va vb)
  | [], va, vb, ha, hb => by
    simp [sampleAll] at ha hb; subst ha hb; rfl
  | t :: ts, va, vb, ha, hb => by
    rw [sampleAll] at ha hb
    rw [sampleAll, interpolate_added t a b time h]
    cases ia : interpolate t a time <;> rw [ia] at ha <;> simp at ha
    cases ib : interpolate t b time <;> rw [ib] at hb <;> simp at hb
    cases sa : sampleAll a time ts <;> rw [sa] at ha <;> simp [Res.bind] at ha
    cases sb : sampleAll b time ts <;> rw [sb] at hb <;> simp [Res.bind] at hb
    simp only [Found.add]
    rw [sampleAll_added a b time h ts _ _ sa sb]
    subst ha hb
    rfl

theorem sampleAll_ok (data time : List K) : ∀ ts : List K, (∀ t ∈ ts, ∃ v, interpolate t data time = .value v) →
    ∃ vs, sampleAll data time ts = .ok vs
  | [], _ => ⟨[], rfl⟩
  | t :: ts, h => by
    obtain ⟨v, hv⟩ := h t (by simp)
    obtain ⟨vs, hvs⟩ := sampleAll_ok data time ts fun t ht => h t (List.mem_cons_of_mem _ ht)
    exact ⟨v :: vs, by rw [sampleAll, hv, hvs]; rfl⟩

theorem sampleAll_get (data time : List K) : ∀ (ts vs : List K), sampleAll data time ts = .ok vs →
    vs.length = ts.length ∧ ∀ (i : Nat) (t : K), ts[i]? = some t → ∃ v, vs[i]? = some v ∧ interpolate t data time = .value v
  | [], vs, h => by simp [sampleAll] at h; subst h; simp
  | t :: ts, vs, h => by
    rw [sampleAll] at h
    cases hi : interpolate t data time <;> rw [hi] at h <;> simp at h
    cases hs : sampleAll data time ts <;> rw [hs] at h <;> simp [Res.bind] at h
    subst h
    obtain ⟨h1, h2⟩ := sampleAll_get data time ts _ hs
    refine ⟨by simp [h1], fun i u hu => ?_⟩
    cases i with
    | zero => simp at hu; subst hu; exact ⟨_, rfl, hi⟩
    | succ i => simpa using h2 i u (by simpa using hu)

theorem sampleAll_throws (data time : List K) : ∀ ts : List K,
    (∀ t ∈ ts, interpolate t data time ≠ .ub) → (∃ t ∈ ts, interpolate t data time = .nothing) →
    sampleAll data time ts = .throws
  | [], _, h => by simp at h
  | t :: ts, hu, h => by
    rw [sampleAll]
    cases hi : interpolate t data time with
    | nothing => rfl
    | ub => exact absurd hi (hu t (by simp))
    | value v =>
      simp only
      rw [sampleAll_throws data time ts (fun t ht => hu t (List.mem_cons_of_mem _ ht))]
      · rfl
      · obtain ⟨u, h1, h2⟩ := h
        rcases List.mem_cons.mp h1 with rfl | h1
        · rw [hi] at h2; simp at h2
        · exact ⟨u, h1, h2⟩

theorem interpolate_not_ub (t : K) : ∀ (data ts : List K), data.length ≤ ts.length →
    interpolate t data ts ≠ .ub
  | [], ts, _ => by simp [interpolate]
  | [d], ts, _ => by simp [interpolate]
  | d0 :: d1 :: ds, [], h => by simp at h
  | d0 :: d1 :: ds, [a], h => by simp at h
  | d0 :: d1 :: ds, t0 :: t1 :: ts, hl => by
    have ih := interpolate_not_ub t (d1 :: ds) (t1 :: ts) (by simpa using hl)
    rw [interpolate]
    split_ifs <;> first | exact ih | simp

/-! ## The sampled times -/

theorem sampleTimes_length (f : K) (n : Nat) : (sampleTimes f n).length = n := by
  unfold sampleTimes
  rw [List.length_take, Sampling.linearSpaced_length]; omega

theorem sampleTimes_get (f : K) (n i : Nat) (h : i < n) :
    (sampleTimes f n)[i]? = some ((i : K) * (1 / roundFloat f 9 / (n : K))) := by
  unfold sampleTimes
  rw [List.getElem?_take_of_lt h, Sampling.linearSpaced_get _ _ _ _ (by omega)]
  unfold Sampling.sample
  congr 1
  push_cast
  ring

theorem points_ge (size : Nat) (p : Option Nat) (setting : Nat) : size ≤ pointsForSampling size p setting := by
  unfold pointsForSampling
  simp only
  split_ifs with h1 h2
  · exact le_refl _
  · exact (Sampling.isNextPower_clog size).2.1
  · omega

end Verif.Waveforms
