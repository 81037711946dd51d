import Verif.StrayCapacitance.Model
import Mathlib.Tactic.Linarith
import Mathlib.Tactic.FieldSimp
import Mathlib.Tactic.Ring
import Mathlib.Tactic.Positivity
import Mathlib.Tactic.NormNum

/-!
# Voltages of the turns, and two layers of insulation

C141 and C142.
-/

set_option linter.unusedSectionVars false

namespace Verif.StrayCapacitance

variable {K : Type} [Field K] [LinearOrder K] [IsStrictOrderedRing K]

/-! ## Specification -/

namespace Spec

/-- How many turns of the same winding and parallel come before turn `i`. -/
def rank (ts : List Turn) (i : Nat) (t : Turn) : Nat :=
  ((ts.take i).filter fun u => u.winding = t.winding ∧ u.parallel = t.parallel).length

/-- The windings have names of their own. -/
abbrev Named (ws : List Winding) : Prop := (ws.map Winding.name).Nodup

end Spec

/-! ## Lemmas -/

theorem voltLoop_length (ws : List Winding) (rms : String → K) (ts : List Turn) :
    ∀ count, (voltLoop ws rms count ts).length = ts.length := by
  induction ts with
  | nil => intro count; rfl
  | cons t ts ih => intro count; simp [voltLoop, ih]

theorem voltLoop_get (ws : List Winding) (rms : String → K) (ts : List Turn) :
    ∀ (count : String × Nat → Nat) (i : Nat) (t : Turn), ts[i]? = some t →
      (voltLoop ws rms count ts)[i]? =
        some (turnVoltage (numberTurns ws t.winding) (count (t.winding, t.parallel) + Spec.rank ts i t) (rms t.winding)) := by
  induction ts with
  | nil => intro count i t h; simp at h
  | cons u us ih =>
    intro count i t h
    cases i with
    | zero =>
      simp at h
      subst h
      simp [voltLoop, Spec.rank]
    | succ i =>
      simp only [List.getElem?_cons_succ] at h
      rw [voltLoop, List.getElem?_cons_succ, ih _ i t h]
      congr 2
      by_cases hu : u.winding = t.winding ∧ u.parallel = t.parallel
      · have h1 : Spec.rank (u :: us) (i + 1) t = Spec.rank us i t + 1 := by
          simp [Spec.rank, hu.1, hu.2]
        rw [h1, hu.1, hu.2, if_pos rfl]
        omega
      · have h1 : Spec.rank (u :: us) (i + 1) t = Spec.rank us i t := by
          simp only [Spec.rank, List.take_succ_cons]
          rw [List.filter_cons_of_neg (by simpa using hu)]
        rw [h1, if_neg]
        intro h2
        simp only [Prod.mk.injEq] at h2
        exact hu ⟨h2.1.symm, h2.2.symm⟩

theorem numberTurns_of_named {ws : List Winding} (hn : Spec.Named ws) {w : Winding} (hw : w ∈ ws) :
    numberTurns ws w.name = w.turns := by
  unfold numberTurns
  cases h : ws.reverse.find? (fun x => x.name = w.name) with
  | none =>
    rw [List.find?_eq_none] at h
    exact absurd (h w (by simpa using hw)) (by simp)
  | some x =>
    have h1 := List.find?_some h
    have h2 : x ∈ ws := by simpa using List.mem_of_find?_eq_some h
    have h3 : x = w := List.inj_on_of_nodup_map hn h2 hw (by simpa using h1)
    rw [h3]

/-! ## Voltages of the turns -/

/-- C141: the voltages computed for the turns of a coil, one for each turn in their order. In a winding of N > 1 turns, the turn
with k turns of its own parallel before it goes from 1 - k/N to 1 - (k+1)/N of the voltage of the winding, and is itself taken at
1 - k/(N-1) of it. -/
theorem voltages_are {ws : List Winding} (hn : Spec.Named ws) (rms : String → K) (ts : List Turn) :
    ∃ r, voltagesPerTurn ws rms (some ts) = .ok r ∧ r.length = ts.length ∧
      ∀ i t w, ts[i]? = some t → w ∈ ws → w.name = t.winding → 1 < w.turns →
        ∃ v, r[i]? = some v ∧
          v.start = 1 - (Spec.rank ts i t : K) / (w.turns : K) ∧
          v.stop = 1 - ((Spec.rank ts i t : K) + 1) / (w.turns : K) ∧
          v.volt = rms t.winding * (1 - (Spec.rank ts i t : K) / ((w.turns : K) - 1)) := by
  refine ⟨_, rfl, voltLoop_length _ _ _ _, ?_⟩
  intro i t w hi hw hname hN
  refine ⟨_, voltLoop_get ws rms ts _ i t hi, ?_⟩
  rw [← hname, numberTurns_of_named hn hw]
  have h1 : (1 : K) < (w.turns : K) := by exact_mod_cast hN
  have h2 : (w.turns : K) ≠ 0 := by linarith
  have h3 : (w.turns : K) - 1 ≠ 0 := by linarith
  simp only [turnVoltage, if_pos hN, Nat.zero_add]
  push_cast
  refine ⟨?_, ?_, ?_⟩ <;> field_simp <;> ring

example : Spec.Named [{ name := "a", turns := 3 }, { name := "b", turns := 1 }] := by decide +kernel

/-- C141: within a parallel the turns follow each other: one starts at the fraction where the turn before it ended. -/
theorem turns_follow {ws : List Winding} (hn : Spec.Named ws) (rms : String → K) (ts : List Turn) {i j : Nat} {t u : Turn}
    {w : Winding} (hi : ts[i]? = some t) (hj : ts[j]? = some u) (hw : w ∈ ws) (hname : w.name = t.winding)
    (hN : 1 < w.turns) (hsame : u.winding = t.winding) (hr : Spec.rank ts j u = Spec.rank ts i t + 1) :
    ∃ r a b, voltagesPerTurn ws rms (some ts) = .ok r ∧ r[i]? = some a ∧ r[j]? = some b ∧ b.start = a.stop := by
  obtain ⟨r, h1, -, h2⟩ := voltages_are hn rms ts
  obtain ⟨a, ha, -, ha2, -⟩ := h2 i t w hi hw hname hN
  obtain ⟨b, hb, hb1, -, -⟩ := h2 j u w hj hw (by rw [hname, hsame]) hN
  refine ⟨r, a, b, h1, ha, hb, ?_⟩
  rw [ha2, hb1, hr]
  push_cast
  ring

/-- C141: the first turn of a parallel starts at the whole voltage of the winding and is taken at it; the last of the turns of the
winding ends at none of it, and is taken at none. -/
theorem ends_of_parallel {ws : List Winding} (hn : Spec.Named ws) (rms : String → K) (ts : List Turn) {i : Nat} {t : Turn}
    {w : Winding} (hi : ts[i]? = some t) (hw : w ∈ ws) (hname : w.name = t.winding) (hN : 1 < w.turns) :
    ∃ r a, voltagesPerTurn ws rms (some ts) = .ok r ∧ r[i]? = some a ∧
      (Spec.rank ts i t = 0 → a.start = 1 ∧ a.volt = rms t.winding) ∧
      ((Spec.rank ts i t : Int) + 1 = w.turns → a.stop = 0 ∧ a.volt = 0) := by
  obtain ⟨r, h1, -, h2⟩ := voltages_are hn rms ts
  obtain ⟨a, ha, ha1, ha2, ha3⟩ := h2 i t w hi hw hname hN
  have hN' : (1 : K) < (w.turns : K) := by exact_mod_cast hN
  refine ⟨r, a, h1, ha, ?_, ?_⟩
  · intro h0
    rw [ha1, ha3, h0]
    simp
  · intro h0
    have h3 : (Spec.rank ts i t : K) + 1 = (w.turns : K) := by exact_mod_cast congrArg (Int.cast : Int → K) h0
    have h4 : (Spec.rank ts i t : K) = (w.turns : K) - 1 := by linarith
    rw [ha2, ha3, h4, sub_add_cancel, div_self (by linarith), div_self (by linarith)]
    simp

/-- C141: as long as a parallel has no more turns than its winding, the fractions are between 0 and 1, and the voltage at which a
turn is taken lies between those of its end and of its start. -/
theorem voltage_within_turn {ws : List Winding} (hn : Spec.Named ws) (rms : String → K) (ts : List Turn) {i : Nat} {t : Turn}
    {w : Winding} (hi : ts[i]? = some t) (hw : w ∈ ws) (hname : w.name = t.winding) (hN : 1 < w.turns)
    (hk : (Spec.rank ts i t : Int) < w.turns) (hv : 0 ≤ rms t.winding) :
    ∃ r a, voltagesPerTurn ws rms (some ts) = .ok r ∧ r[i]? = some a ∧
      0 ≤ a.stop ∧ a.stop < a.start ∧ a.start ≤ 1 ∧
      rms t.winding * a.stop ≤ a.volt ∧ a.volt ≤ rms t.winding * a.start := by
  obtain ⟨r, h1, -, h2⟩ := voltages_are hn rms ts
  obtain ⟨a, ha, ha1, ha2, ha3⟩ := h2 i t w hi hw hname hN
  have hN' : (1 : K) < (w.turns : K) := by exact_mod_cast hN
  have hk' : (Spec.rank ts i t : K) + 1 ≤ (w.turns : K) := by
    have : (Spec.rank ts i t : Int) + 1 ≤ w.turns := by omega
    exact_mod_cast (Int.cast_le (R := K)).mpr this
  have hk0 : (0 : K) ≤ (Spec.rank ts i t : K) := Nat.cast_nonneg _
  generalize (Spec.rank ts i t : K) = k at *
  generalize (w.turns : K) = N at *
  have hN0 : 0 < N := by linarith
  refine ⟨r, a, h1, ha, ?_, ?_, ?_, ?_, ?_⟩
  · rw [ha2, sub_nonneg, div_le_one hN0]; exact hk'
  · rw [ha1, ha2]
    have : k / N < (k + 1) / N := by
      apply div_lt_div_of_pos_right _ hN0
      linarith
    linarith
  · rw [ha1]
    have : 0 ≤ k / N := by positivity
    linarith
  · rw [ha2, ha3]
    apply mul_le_mul_of_nonneg_left _ hv
    have : k / (N - 1) ≤ (k + 1) / N := by
      rw [div_le_div_iff₀ (by linarith) hN0]
      nlinarith
    linarith
  · rw [ha1, ha3]
    apply mul_le_mul_of_nonneg_left _ hv
    have : k / N ≤ k / (N - 1) := by
      apply div_le_div_of_nonneg_left hk0 (by linarith) (by linarith)
    linarith

/-- C141: corresponding turns of two parallels of a winding are taken at the same voltage. -/
theorem parallels_same_voltage {ws : List Winding} (rms : String → K) (ts : List Turn) {i j : Nat} {t u : Turn}
    (hi : ts[i]? = some t) (hj : ts[j]? = some u) (hsame : u.winding = t.winding)
    (hr : Spec.rank ts j u = Spec.rank ts i t) :
    ∃ r, voltagesPerTurn ws rms (some ts) = .ok r ∧ r[i]? = r[j]? := by
  refine ⟨_, rfl, ?_⟩
  rw [voltLoop_get ws rms ts _ i t hi, voltLoop_get ws rms ts _ j u hj, hsame, hr]

/-- C141: the voltage at which a turn is taken is the mean of those of its start and end only for the turn in the middle of its
parallel (or if the winding has no voltage). -/
theorem center_is_mean_iff {ws : List Winding} (hn : Spec.Named ws) (rms : String → K) (ts : List Turn) {i : Nat} {t : Turn}
    {w : Winding} (hi : ts[i]? = some t) (hw : w ∈ ws) (hname : w.name = t.winding) (hN : 1 < w.turns) :
    ∃ r a, voltagesPerTurn ws rms (some ts) = .ok r ∧ r[i]? = some a ∧
      (a.volt = rms t.winding * ((a.start + a.stop) / 2) ↔
        rms t.winding = 0 ∨ 2 * (Spec.rank ts i t : Int) + 1 = w.turns) := by
  obtain ⟨r, h1, -, h2⟩ := voltages_are hn rms ts
  obtain ⟨a, ha, ha1, ha2, ha3⟩ := h2 i t w hi hw hname hN
  have hN' : (1 : K) < (w.turns : K) := by exact_mod_cast hN
  refine ⟨r, a, h1, ha, ?_⟩
  have key : (2 * (Spec.rank ts i t : Int) + 1 = w.turns) ↔ 2 * (Spec.rank ts i t : K) + 1 = (w.turns : K) := by
    rw [← Int.cast_inj (α := K)]
    push_cast
    rfl
  rw [key, ha1, ha2, ha3]
  generalize (Spec.rank ts i t : K) = k at *
  generalize (w.turns : K) = N at *
  have h3 : N ≠ 0 := by linarith
  have h4 : N - 1 ≠ 0 := by linarith
  rw [mul_eq_mul_left_iff, or_comm]
  apply or_congr Iff.rfl
  constructor
  · intro h
    field_simp at h
    linarith
  · intro h
    have h5 : k = (N - 1) / 2 := by linarith
    rw [h5]
    field_simp
    ring

/-- C141: for instance, the first of three turns goes from the whole voltage to two thirds of it, but is taken at the whole. -/
theorem first_turn_at_whole_voltage :
    ∃ (ws : List Winding) (rms : String → ℚ) (ts : List Turn) (r : List (TurnVoltage ℚ)),
      Spec.Named ws ∧ ws = [{ name := "a", turns := 3 }] ∧ ts.length = 3 ∧ rms "a" = 12 ∧
      voltagesPerTurn ws rms (some ts) = .ok r ∧
      r[0]? = some { start := 1, stop := 2 / 3, volt := 12 } := by
  refine ⟨[{ name := "a", turns := 3 }], fun _ => 12, List.replicate 3 { winding := "a", parallel := 0 }, _, ?_, rfl, rfl, rfl,
    rfl, ?_⟩ <;> decide +kernel

/-- C141: a coil without description of its turns is refused. -/
theorem voltages_need_turns (ws : List Winding) (rms : String → K) :
    voltagesPerTurn ws rms none = .error .noTurns := rfl

/-- C141: the voltages of the windings are taken from the excitations, that at the same position for each winding; they are
refused when one is missing or has no processed voltage with an rms. -/
theorem excitations_read (ws : List Winding) (es : List (Excitation K)) :
    (∀ r, rmsOfExcitations ws es = .ok r ↔
      r.length = ws.length ∧
      ∀ (i : Nat) (w : Winding), ws[i]? = some w →
        ∃ v : K, es[i]? = some (some (some (some v))) ∧ r[i]? = some (w.name, v)) := by
  induction ws generalizing es with
  | nil =>
    intro r
    cases r with
    | nil => simp [rmsOfExcitations]
    | cons a b => simp [rmsOfExcitations]
  | cons w ws ih =>
    intro r
    have h0 : ∀ (P : Nat → Winding → Prop), (∀ i x, (w :: ws)[i]? = some x → P i x) ↔
        P 0 w ∧ ∀ i x, ws[i]? = some x → P (i + 1) x := by
      intro P
      constructor
      · intro h
        exact ⟨h 0 w rfl, fun i x hx => h (i + 1) x (by simpa using hx)⟩
      · rintro ⟨ha, hb⟩ i x hx
        cases i with
        | zero => simp at hx; rw [← hx]; exact ha
        | succ i => exact hb i x (by simpa using hx)
    rw [h0]
    match es with
    | [] => simp [rmsOfExcitations]
    | none :: es => simp [rmsOfExcitations]
    | some none :: es => simp [rmsOfExcitations]
    | some (some none) :: es => simp [rmsOfExcitations]
    | some (some (some v)) :: es =>
      simp only [rmsOfExcitations]
      cases hr : rmsOfExcitations ws es with
      | error e =>
        simp only [reduceCtorEq, false_iff]
        rintro ⟨h1, h2, h3⟩
        cases r with
        | nil => simp at h1
        | cons a b =>
          have := (ih es b).mpr ⟨by simpa using h1, fun i x hx => by
            obtain ⟨v, hv1, hv2⟩ := h3 i x hx
            exact ⟨v, by simpa using hv1, by simpa using hv2⟩⟩
          rw [hr] at this
          cases this
      | ok s =>
        have h5 := (ih es s).mp hr
        constructor
        · intro h
          simp only [Except.ok.injEq] at h
          rw [← h]
          refine ⟨by simp [h5.1], ⟨v, by simp, by simp⟩, ?_⟩
          intro i x hx
          obtain ⟨v, hv1, hv2⟩ := h5.2 i x hx
          exact ⟨v, by simpa using hv1, by simpa using hv2⟩
        · rintro ⟨h1, ⟨v', hv1, hv2⟩, h3⟩
          cases r with
          | nil => simp at h1
          | cons a b =>
            have := (ih es b).mpr ⟨by simpa using h1, fun i x hx => by
              obtain ⟨v, hv1, hv2⟩ := h3 i x hx
              exact ⟨v, by simpa using hv1, by simpa using hv2⟩⟩
            rw [hr] at this
            simp at this hv1 hv2
            rw [this, hv2, hv1]

/-! ## Two layers of insulation -/

/-- C142: two layers of insulation act as one as thick as both with a permittivity such that the quotients of thickness and
permittivity add up, as those of capacitances in series do. -/
theorem layers_in_series {d1 d2 e1 e2 : K} (h1 : 0 ≤ d1) (h2 : 0 ≤ d2) (he1 : 0 < e1) (he2 : 0 < e2) :
    (d1 + d2) / effectivePermittivity (some d1) e1 (some d2) e2 = d1 / e1 + d2 / e2 := by
  unfold effectivePermittivity
  by_cases hd1 : d1 = 0
  · simp [hd1]
  by_cases hd2 : d2 = 0
  · simp [hd1, hd2]
  have p1 : 0 < d1 := lt_of_le_of_ne h1 (Ne.symm hd1)
  have p2 : 0 < d2 := lt_of_le_of_ne h2 (Ne.symm hd2)
  simp only [if_neg hd1, if_neg hd2]
  have : d1 * e2 + d2 * e1 ≠ 0 := by positivity
  field_simp

/-- C142: the permittivity of two layers lies between those of both, also when a thickness is infinite. -/
theorem permittivity_between {d1 d2 : Option K} {e1 e2 : K} (h1 : ∀ d, d1 = some d → 0 ≤ d) (h2 : ∀ d, d2 = some d → 0 ≤ d)
    (he1 : 0 < e1) (he2 : 0 < e2) :
    min e1 e2 ≤ effectivePermittivity d1 e1 d2 e2 ∧ effectivePermittivity d1 e1 d2 e2 ≤ max e1 e2 := by
  have hm : min e1 e2 ≤ max e1 e2 := min_le_max
  unfold effectivePermittivity
  match d1, d2 with
  | none, none => exact ⟨hm, le_refl _⟩
  | none, some _ => exact ⟨hm, le_refl _⟩
  | some _, none => exact ⟨hm, le_refl _⟩
  | some d1, some d2 =>
    have h1 := h1 d1 rfl
    have h2 := h2 d2 rfl
    by_cases hd1 : d1 = 0
    · simp [hd1]
    by_cases hd2 : d2 = 0
    · simp [hd1, hd2]
    have p1 : 0 < d1 := lt_of_le_of_ne h1 (Ne.symm hd1)
    have p2 : 0 < d2 := lt_of_le_of_ne h2 (Ne.symm hd2)
    simp only [if_neg hd1, if_neg hd2]
    have hden : 0 < d1 * e2 + d2 * e1 := by positivity
    rw [le_div_iff₀ hden, div_le_iff₀ hden]
    rcases le_total e1 e2 with h | h
    · rw [min_eq_left h, max_eq_right h]
      constructor
      · have : d2 * e1 * e1 ≤ d2 * e1 * e2 := mul_le_mul_of_nonneg_left h (by positivity)
        nlinarith
      · have : d1 * e2 * e1 ≤ d1 * e2 * e2 := mul_le_mul_of_nonneg_left h (by positivity)
        nlinarith
    · rw [min_eq_right h, max_eq_left h]
      constructor
      · have : d1 * e2 * e2 ≤ d1 * e2 * e1 := mul_le_mul_of_nonneg_left h (by positivity)
        nlinarith
      · have : d2 * e1 * e2 ≤ d2 * e1 * e1 := mul_le_mul_of_nonneg_left h (by positivity)
        nlinarith

/-- C142: the order of the layers does not matter, unless neither has a thickness. -/
theorem permittivity_symmetric {d1 d2 : Option K} {e1 e2 : K} (h : ¬ (d1 = some 0 ∧ d2 = some 0)) :
    effectivePermittivity d1 e1 d2 e2 = effectivePermittivity d2 e2 d1 e1 := by
  unfold effectivePermittivity
  match d1, d2 with
  | none, none => exact max_comm _ _
  | none, some _ => exact max_comm _ _
  | some _, none => exact max_comm _ _
  | some d1, some d2 =>
    by_cases hd1 : d1 = 0
    · by_cases hd2 : d2 = 0
      · exact absurd ⟨by rw [hd1], by rw [hd2]⟩ h
      · simp [hd1, hd2]
    · by_cases hd2 : d2 = 0
      · simp [hd1, hd2]
      · simp only [if_neg hd1, if_neg hd2]
        congr 1 <;> ring

example : ¬ ((some (1 : ℚ) = some 0) ∧ some (2 : ℚ) = some 0) := by decide +kernel

/-- C142: of two layers without thickness, the permittivity of the second is the one given. -/
theorem no_thickness_takes_second (e1 e2 : K) : effectivePermittivity (some 0) e1 (some 0) e2 = e2 := by
  simp [effectivePermittivity]

end Verif.StrayCapacitance
