import Verif.Waveforms.Lemmas

/-! # Averages, arithmetic and shifts of waveforms (C119, C120) -/

namespace Verif.Waveforms

open Verif.Round (roundFloat)

set_option linter.unusedSectionVars false
set_option linter.unusedSimpArgs false

variable {K : Type} [Field K] [LinearOrder K] [IsStrictOrderedRing K] [FloorRing K]

/-! ## Specification -/

/-- A waveform as a user gives one: as many times as values, times that never go back, and a last one later than
the first by `T`. -/
structure WellTimed (w : Waveform K) (ts : List K) (T : K) : Prop where
  times : w.time = some ts
  sizes : ts.length = w.data.length
  ordered : ts.Pairwise (· ≤ ·)
  spans : span ts = some T
  positive : 0 < T

/-! ## C119: the average of a waveform -/

/-- C119: the average of a waveform whose times do not go back exists and lies within any bounds of the values. -/
theorem average_between (w : Waveform K) (ts : List K) (T lo hi : K) (h : WellTimed w ts T)
    (hb : ∀ d ∈ w.data, lo ≤ d ∧ d ≤ hi) : ∃ a, average w = .ok a ∧ lo ≤ a ∧ a ≤ hi := by
  obtain ⟨r, hr, h1, h2⟩ := trapezia_bounds lo hi w.data ts T h.sizes h.ordered hb h.spans
  have hne : w.data ≠ [] := by
    intro e
    have := h.sizes
    rw [e, List.length_nil, List.length_eq_zero_iff] at this
    have hs := h.spans
    rw [this] at hs; simp [span] at hs
  refine ⟨r / T, ?_, ?_, ?_⟩
  · unfold average
    rw [h.times]
    simp only [h.spans, hr, Res.bind]
    rw [if_neg hne, if_neg h.positive.ne']
  · rw [le_div_iff₀ h.positive]; exact h1
  · rw [div_le_iff₀ h.positive]; exact h2

/-- C119: the average of a waveform multiplied by a number is the average multiplied, whatever the waveform. -/
theorem average_multiplied (w : Waveform K) (k : K) :
    average (multiply w k) = (average w).bind fun a => .ok (a * k) := by
  unfold average multiply
  simp only
  cases w.time with
  | none => rfl
  | some ts =>
    simp only
    cases span ts with
    | none => rfl
    | some p =>
      simp only [List.map_eq_nil_iff]
      by_cases he : w.data = []
      · rw [if_pos he, if_pos he]; rfl
      · rw [if_neg he, if_neg he, trapezia_scaled]
        cases trapezia w.data ts <;> simp only [Res.bind]
        by_cases hp : p = 0
        · rw [if_pos hp, if_pos hp]
        · rw [if_neg hp, if_neg hp]; simp only [Res.ok.injEq]; ring

/-- C119: the average of a waveform raised by a number is the average raised by it. -/
theorem average_raised (w : Waveform K) (ts : List K) (c : K) (ht : w.time = some ts)
    (hl : ts.length = w.data.length) : average (sum w c) = (average w).bind fun a => .ok (a + c) := by
  unfold average sum
  simp only [ht]
  cases hs : span ts with
  | none => rfl
  | some p =>
    simp only [List.map_eq_nil_iff]
    by_cases he : w.data = []
    · rw [if_pos he, if_pos he]; rfl
    · rw [if_neg he, if_neg he, trapezia_raised c w.data ts p hl hs]
      cases trapezia w.data ts <;> simp only [Res.bind]
      by_cases hp : p = 0
      · rw [if_pos hp, if_pos hp]
      · rw [if_neg hp, if_neg hp]; simp only [Res.ok.injEq]; field_simp

/-- C119: the average of the sum of two waveforms with the same times is the sum of their averages. -/
theorem average_added (a b s : Waveform K) (x y : K) (ht : a.time = b.time) (h : add a b = .ok s)
    (hx : average a = .ok x) (hy : average b = .ok y) : average s = .ok (x + y) := by
  unfold add at h
  by_cases hl : a.data.length ≠ b.data.length
  · rw [if_pos hl] at h; simp at h
  · rw [if_neg hl] at h
    simp only [Res.ok.injEq] at h
    subst h
    push Not at hl
    unfold average at hx hy ⊢
    simp only
    rw [← ht] at hy
    cases h' : a.time with
    | none => rw [h'] at hx; simp at hx
    | some ts =>
      rw [h'] at hx hy
      simp only at hx hy ⊢
      cases hs : span ts with
      | none => rw [hs] at hx; simp at hx
      | some p =>
        rw [hs] at hx hy
        simp only at hx hy ⊢
        by_cases he : a.data = []
        · rw [if_pos he] at hx; simp at hx
        · rw [if_neg he] at hx
          by_cases hf : b.data = []
          · rw [if_pos hf] at hy; simp at hy
          · rw [if_neg hf] at hy
            have hz : List.zipWith (· + ·) a.data b.data ≠ [] := by
              intro e
              have := congrArg List.length e
              rw [List.length_zipWith, ← hl, min_self, List.length_nil, List.length_eq_zero_iff] at this
              exact he this
            rw [if_neg hz, trapezia_added _ _ _ hl]
            cases hA : trapezia a.data ts <;> rw [hA] at hx <;> simp only [Res.bind] at hx ⊢ <;>
              try (simp at hx; done)
            cases hB : trapezia b.data ts <;> rw [hB] at hy <;> simp only [Res.bind] at hy ⊢ <;>
              try (simp at hy; done)
            by_cases hp : p = 0
            · rw [if_pos hp] at hx; simp at hx
            · rw [if_neg hp] at hx hy ⊢
              simp only [Res.ok.injEq] at hx hy ⊢
              rw [← hx, ← hy]; ring

/-- C119: a waveform without times has no average to be read: the times are looked into without a test. -/
theorem average_without_times (w : Waveform K) (h : w.time = none) : average w = .ub := by
  unfold average; rw [h]

example : WellTimed (K := ℚ) ⟨[-1, 3, -1], some [0, 1, 4], none⟩ [0, 1, 4] 4 :=
  ⟨rfl, rfl, by decide +kernel, by decide +kernel, by norm_num⟩

example : average (K := ℚ) ⟨[-1, 3, -1], some [0, 1, 4], none⟩ = .ok 1 := by decide +kernel

/-! ## C120: waveforms are added and shifted point by point -/

/-- C120: waveforms of different sizes are neither added nor subtracted. -/
theorem sizes_must_agree (a b : Waveform K) :
    (add a b = .throws ↔ a.data.length ≠ b.data.length) ∧ (subtract a b = .throws ↔ a.data.length ≠ b.data.length) := by
  unfold add subtract
  constructor <;> split_ifs with h <;> simp_all

/-- C120: subtracting what was added gives the first waveform back, times and label included. -/
theorem subtract_added (a b s : Waveform K) (h : add a b = .ok s) : subtract s b = .ok a := by
  unfold add at h
  by_cases hl : a.data.length ≠ b.data.length
  · rw [if_pos hl] at h; simp at h
  · rw [if_neg hl] at h
    simp only [Res.ok.injEq] at h
    subst h
    push Not at hl
    unfold subtract
    rw [if_neg (by simp [hl])]
    simp only [Res.ok.injEq]
    have : List.zipWith (· - ·) (List.zipWith (· + ·) a.data b.data) b.data = a.data := by
      apply List.ext_getElem
      · simp [hl]
      · intro i h1 h2
        simp
    rw [this]

/-- C120: each value of the sum is the sum of the values at the same place. -/
theorem added_pointwise (a b s : Waveform K) (h : add a b = .ok s) (i : Nat) (x y : K)
    (hx : a.data[i]? = some x) (hy : b.data[i]? = some y) : s.data[i]? = some (x + y) ∧ s.time = a.time := by
  unfold add at h
  by_cases hl : a.data.length ≠ b.data.length
  · rw [if_pos hl] at h; simp at h
  · rw [if_neg hl] at h
    simp only [Res.ok.injEq] at h
    subst h
    simp [List.getElem?_zipWith, hx, hy]

/-- C120: an empty waveform is not shifted. -/
theorem shift_empty (w : Waveform K) (k : Int) : shift w k = .throws ↔ w.data = [] := by
  unfold shift
  simp only [List.length_eq_zero_iff]
  split_ifs with h1 h2 <;> simp_all

/-- C120: shifting moves every value `k` places on, going round: the value at `i` goes to `i + k` modulo the number
of values. The times and the label stay. -/
theorem shift_moves (w : Waveform K) (k : Int) (h : w.data ≠ []) :
    ∃ w', shift w k = .ok w' ∧ w'.time = w.time ∧ w'.label = w.label ∧ w'.data.length = w.data.length ∧
      ∀ i : Nat, i < w.data.length → w'.data[(((i : Int) + k) % w.data.length).toNat]? = w.data[i]? := by
  have hn : w.data.length ≠ 0 := fun e => h (List.length_eq_zero_iff.mp e)
  have hs := normalised_eq k w.data.length (Nat.pos_of_ne_zero hn)
  have hidx : ∀ i : Nat, (((i : Int) + k) % w.data.length).toNat = (i + normalised k w.data.length) % w.data.length := by
    intro i
    have : (((i + normalised k w.data.length) % w.data.length : Nat) : Int) = ((i : Int) + k) % w.data.length := by
      push_cast
      rw [hs, Int.add_emod_emod]
    rw [← this, Int.toNat_natCast]
  unfold shift
  simp only [if_neg hn]
  by_cases h0 : normalised k w.data.length = 0
  · rw [if_pos h0]
    refine ⟨w, rfl, rfl, rfl, rfl, fun i hi => ?_⟩
    rw [hidx, h0, Nat.add_zero, Nat.mod_eq_of_lt hi]
  · rw [if_neg h0]
    refine ⟨_, rfl, rfl, rfl, by simp [scatter_length], fun i hi => ?_⟩
    rw [hidx]
    have := scatter_hit (normalised k w.data.length) w.data.length 0 w.data (List.replicate w.data.length 0) i
      (by simp) (by omega) hi
    rw [Nat.zero_add] at this
    exact this

theorem waveform_ext {a b : Waveform K} (h1 : a.data = b.data) (h2 : a.time = b.time) (h3 : a.label = b.label) :
    a = b := by cases a; cases b; simp_all

/-- Two shifts that move every value to the same place give the same waveform. -/
theorem eq_of_places (w a b : Waveform K) (k : Int) (hw : w.data ≠ [])
    (ha : a.time = w.time ∧ a.label = w.label ∧ a.data.length = w.data.length ∧
      ∀ i : Nat, i < w.data.length → a.data[(((i : Int) + k) % w.data.length).toNat]? = w.data[i]?)
    (hb : b.time = w.time ∧ b.label = w.label ∧ b.data.length = w.data.length ∧
      ∀ i : Nat, i < w.data.length → b.data[(((i : Int) + k) % w.data.length).toNat]? = w.data[i]?) : a = b := by
  apply waveform_ext _ (ha.1.trans hb.1.symm) (ha.2.1.trans hb.2.1.symm)
  have hn : (0 : Int) < w.data.length := by
    have : w.data.length ≠ 0 := fun e => hw (List.length_eq_zero_iff.mp e)
    omega
  apply List.ext_getElem?
  intro j
  by_cases hj : j < w.data.length
  · -- the value that came from `j - k`
    have h1 := Int.emod_nonneg ((j : Int) - k) hn.ne'
    have h2 := Int.emod_lt_of_pos ((j : Int) - k) hn
    obtain ⟨i, hi⟩ : ∃ i : Nat, (i : Int) = ((j : Int) - k) % w.data.length :=
      ⟨(((j : Int) - k) % w.data.length).toNat, by rw [Int.toNat_of_nonneg h1]⟩
    have hi' : i < w.data.length := by omega
    have hplace : (((i : Int) + k) % w.data.length).toNat = j := by
      rw [hi, Int.emod_add_emod, sub_add_cancel, Int.emod_eq_of_lt (by omega) (by omega)]; simp
    have e1 := ha.2.2.2 i hi'
    have e2 := hb.2.2.2 i hi'
    rw [hplace] at e1 e2
    rw [e1, e2]
  · rw [List.getElem?_eq_none (by rw [ha.2.2.1]; omega), List.getElem?_eq_none (by rw [hb.2.2.1]; omega)]

/-- C120: shifting twice is shifting by the sum. -/
theorem shift_shift (w a b : Waveform K) (j k : Int) (ha : shift w j = .ok a) (hb : shift a k = .ok b) :
    shift w (j + k) = .ok b := by
  have hw : w.data ≠ [] := by
    intro e; rw [(shift_empty w j).mpr e] at ha; simp at ha
  obtain ⟨a', ha', ta, la, na, pa⟩ := shift_moves w j hw
  rw [ha] at ha'
  simp only [Res.ok.injEq] at ha'; subst ha'
  have haw : a.data ≠ [] := by
    intro e; rw [(shift_empty a k).mpr e] at hb; simp at hb
  obtain ⟨b', hb', tb, lb, nb, pb⟩ := shift_moves a k haw
  rw [hb] at hb'
  simp only [Res.ok.injEq] at hb'; subst hb'
  obtain ⟨c, hc, tc, lc, nc, pc⟩ := shift_moves w (j + k) hw
  have hn : (0 : Int) < w.data.length := by
    have : w.data.length ≠ 0 := fun e => hw (List.length_eq_zero_iff.mp e)
    omega
  rw [hc]
  congr 1
  refine (eq_of_places w b c (j + k) hw ⟨tb.trans ta, lb.trans la, nb.trans na, fun i hi => ?_⟩
    ⟨tc, lc, nc, pc⟩).symm
  have h1 := Int.emod_nonneg ((i : Int) + j) hn.ne'
  have h2 := Int.emod_lt_of_pos ((i : Int) + j) hn
  rw [← pa i hi]
  have := pb (((i : Int) + j) % w.data.length).toNat (by rw [na]; omega)
  rw [← this]
  congr 2
  rw [Int.toNat_of_nonneg h1, na, Int.emod_add_emod, add_assoc]

/-- C120: shifting by a whole turn, or by nothing, gives the same waveform. -/
theorem shift_turn (w : Waveform K) (k : Int) (h : w.data ≠ []) : shift w (k * w.data.length) = .ok w := by
  have hn : 0 < w.data.length := Nat.pos_of_ne_zero fun e => h (List.length_eq_zero_iff.mp e)
  have hs := normalised_eq (k * w.data.length) w.data.length hn
  rw [Int.mul_emod_left] at hs
  unfold shift
  simp only
  rw [if_neg hn.ne', if_pos (by exact_mod_cast hs)]

/-- C120: shifting back undoes a shift. -/
theorem shift_back (w a : Waveform K) (k : Int) (h : shift w k = .ok a) : shift a (-k) = .ok w := by
  have hw : w.data ≠ [] := by
    intro e; rw [(shift_empty w k).mpr e] at h; simp at h
  obtain ⟨a', ha', -, -, na, -⟩ := shift_moves w k hw
  rw [h] at ha'
  simp only [Res.ok.injEq] at ha'; subst ha'
  have haw : a.data ≠ [] := by
    intro e; rw [e] at na; exact hw (List.length_eq_zero_iff.mp na.symm)
  obtain ⟨b, hb, -⟩ := shift_moves a (-k) haw
  have := shift_shift w a b k (-k) h hb
  rw [add_neg_cancel] at this
  have h0 := shift_turn w 0 hw
  rw [zero_mul, this] at h0
  simp only [Res.ok.injEq] at h0
  rw [hb, h0]

example : shift (K := ℚ) ⟨[1, 2, 3, 4], none, none⟩ 1 = .ok ⟨[4, 1, 2, 3], none, none⟩ := by decide +kernel
example : shift (K := ℚ) ⟨[1, 2, 3, 4], none, none⟩ (-6) = .ok ⟨[3, 4, 1, 2], none, none⟩ := by decide +kernel

end Verif.Waveforms
