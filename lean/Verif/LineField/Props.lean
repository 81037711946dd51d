import Mathlib.Tactic.Ring
import Mathlib.Tactic.Linarith
import Mathlib.Tactic.NormNum
import Mathlib.Tactic.FieldSimp
import Mathlib.Tactic.Positivity
import Mathlib.Tactic.LinearCombination
import Verif.LineField.Model

/-! # Properties of the field of a conductor -/

set_option linter.unusedSimpArgs false
set_option linter.unusedVariables false

namespace Verif.LineField

open Verif.Filters

/-- Spec: the field of a straight current, seen from it: across the way to the point, clockwise, and as strong as the current over the
circumference of the circle about it. -/
structure Ampere (current : ℝ) (d h : ℂ) : Prop where
  across : h.re * d.re + h.im * d.im = 0
  clockwise : d.re * h.im - d.im * h.re = -(current / (2 * Real.pi))
  strength : ‖h‖ * (2 * Real.pi * ‖d‖) = |current|

theorem sq_norm (z : ℂ) : ‖z‖ ^ 2 = z.re ^ 2 + z.im ^ 2 := by
  rw [Complex.sq_norm, Complex.normSq_apply]; ring

theorem sum_pos {d : ℂ} (h : d ≠ 0) : 0 < d.re ^ 2 + d.im ^ 2 := by
  rw [← sq_norm]
  have : 0 < ‖d‖ := norm_pos_iff.mpr h
  positivity

/-- Strength follows from the two others. -/
theorem Ampere.of {current : ℝ} {d h : ℂ} (a : h.re * d.re + h.im * d.im = 0)
    (c : d.re * h.im - d.im * h.re = -(current / (2 * Real.pi))) : Ampere current d h := by
  refine ⟨a, c, ?_⟩
  have hp := Real.pi_pos
  have e : (‖h‖ * (2 * Real.pi * ‖d‖)) ^ 2 = |current| ^ 2 := by
    have e1 : (‖h‖ * (2 * Real.pi * ‖d‖)) ^ 2 = (2 * Real.pi) ^ 2 * (‖h‖ ^ 2 * ‖d‖ ^ 2) := by ring
    have e2 : ‖h‖ ^ 2 * ‖d‖ ^ 2 = (h.re * d.re + h.im * d.im) ^ 2 + (d.re * h.im - d.im * h.re) ^ 2 := by
      rw [sq_norm, sq_norm]; ring
    rw [e1, e2, a, c, sq_abs]
    field_simp
    ring
  exact (pow_left_inj₀ (by positivity) (abs_nonneg _) (by norm_num)).mp e

theorem line_eq (current : ℝ) {p q : ℂ} (h : q ≠ p) :
    line current p q = ⟨current * (q - p).im / (2 * Real.pi * ((q - p).re ^ 2 + (q - p).im ^ 2)),
      -(current * (q - p).re) / (2 * Real.pi * ((q - p).re ^ 2 + (q - p).im ^ 2))⟩ := by
  unfold line
  simp only [Complex.sub_re, Complex.sub_im]
  have e : (p.im - q.im) ^ 2 + (p.re - q.re) ^ 2 = (q.re - p.re) ^ 2 + (q.im - p.im) ^ 2 := by ring
  rw [e]
  congr 2 <;> ring

/-- **C442.** Outside its wire a conductor that is not rotated makes the field of a straight current. -/
theorem binns_ampere {radius : Option ℝ} {current : ℝ} {p q h : ℂ} (hd : q ≠ p) (ho : ∀ r, radius = some r → r ≤ ‖q - p‖)
    (hb : binns radius none current p q = .value h) : Ampere current (q - p) h := by
  have hh : h = line current p q := by
    unfold binns at hb
    cases radius with
    | none =>
      simp only [if_neg (Ne.symm hd), Outcome.value.injEq] at hb
      exact hb.symm
    | some r =>
      have hr : ¬ ‖p - q‖ < r := by rw [norm_sub_rev]; exact not_lt.mpr (ho r rfl)
      simp only [if_neg hr, if_neg (Ne.symm hd), Outcome.value.injEq] at hb
      exact hb.symm
  have hs := sum_pos (sub_ne_zero.mpr hd)
  have hp := Real.pi_pos
  rw [hh, line_eq current hd]
  apply Ampere.of
  · simp only; field_simp; ring
  · simp only; field_simp; ring

/-- **C442.** Inside its wire it makes none, rotated or not. -/
theorem binns_inside {r : ℝ} {rotation : Option ℝ} {current : ℝ} {p q : ℂ} (h : ‖q - p‖ < r) :
    binns (some r) rotation current p q = .value 0 := by
  have hr : ‖p - q‖ < r := by rw [norm_sub_rev]; exact h
  unfold binns
  cases rotation with
  | none => simp only [if_pos hr]
  | some a =>
    simp only [if_pos hr, Outcome.bind, turned, norm_zero, zero_mul, Outcome.value.injEq]
    rfl

/-- **C442.** It has a field at every other place. -/
theorem binns_defined (radius : Option ℝ) (current : ℝ) {p q : ℂ} (h : q ≠ p) : ∃ f, binns radius none current p q = .value f := by
  unfold binns
  cases radius with
  | none => exact ⟨_, by simp only [if_neg (Ne.symm h)]; rfl⟩
  | some r =>
    by_cases hr : ‖p - q‖ < r
    · exact ⟨_, by simp only [if_pos hr]; rfl⟩
    · exact ⟨_, by simp only [if_neg hr, if_neg (Ne.symm h)]; rfl⟩

example : Ampere 1 (⟨1, 0⟩ : ℂ) (line 1 0 ⟨1, 0⟩) := by
  have h : (⟨1, 0⟩ : ℂ) ≠ 0 := fun e => by simpa using congrArg Complex.re e
  have := binns_ampere (radius := none) (current := 1) (p := 0) (q := ⟨1, 0⟩) (h := line 1 0 ⟨1, 0⟩) h (by simp)
    (by simp only [binns, if_neg (Ne.symm h)])
  simpa using this

/-- **C443.** In the model of Lammeraner the field is that of a straight current, weaker by the length of the turn over its hypotenuse with the
distance. -/
theorem lammeraner_ampere {radius length : Option ℝ} {current : ℝ} {p q : ℂ} (hd : q ≠ p) (hl : ∀ l, length = some l → 0 < l)
    (ho : ∀ r, radius = some r → r ≤ ‖q - p‖) :
    ∃ k : ℝ, 0 < k ∧ k < 1 ∧ k * Real.sqrt ((length.getD 1) ^ 2 + ‖q - p‖ ^ 2) = length.getD 1 ∧
      Ampere (k * current) (q - p) (lammeraner radius length current p q) := by
  have hl' : 0 < length.getD 1 := by
    cases length with
    | none => simp
    | some l => exact hl l rfl
  have hn : 0 < ‖q - p‖ := norm_pos_iff.mpr (sub_ne_zero.mpr hd)
  have hp := Real.pi_pos
  generalize hL : length.getD 1 = l at hl'
  have hs : l < Real.sqrt (l ^ 2 + ‖q - p‖ ^ 2) := by
    apply Real.lt_sqrt_of_sq_lt
    nlinarith
  have hs0 : 0 < Real.sqrt (l ^ 2 + ‖q - p‖ ^ 2) := lt_trans hl' hs
  refine ⟨l / Real.sqrt (l ^ 2 + ‖q - p‖ ^ 2), div_pos hl' hs0, (div_lt_one hs0).mpr hs, div_mul_cancel₀ _ hs0.ne', ?_⟩
  have hf : lammeraner radius length current p q =
      ⟨-current / 2 / Real.pi / ‖q - p‖ * l / Real.sqrt (l ^ 2 + ‖q - p‖ ^ 2) * Real.cos (Complex.arg (q - p) + Real.pi / 2),
       -current / 2 / Real.pi / ‖q - p‖ * l / Real.sqrt (l ^ 2 + ‖q - p‖ ^ 2) * Real.sin (Complex.arg (q - p) + Real.pi / 2)⟩ := by
    unfold lammeraner
    rw [hL]
    cases radius with
    | none => rfl
    | some r => exact if_neg (not_lt.mpr (ho r rfl))
  have hre : ‖q - p‖ * Real.cos (Complex.arg (q - p)) = (q - p).re := Complex.norm_mul_cos_arg _
  have him : ‖q - p‖ * Real.sin (Complex.arg (q - p)) = (q - p).im := Complex.norm_mul_sin_arg _
  rw [hf, Real.cos_add_pi_div_two, Real.sin_add_pi_div_two]
  have hcs := Real.sin_sq_add_cos_sq (Complex.arg (q - p))
  apply Ampere.of
  · simp only
    rw [← hre, ← him]
    ring
  · simp only
    rw [← hre, ← him]
    have : ∀ s : ℝ, ‖q - p‖ * Real.cos (Complex.arg (q - p)) * (s * Real.cos (Complex.arg (q - p))) -
        ‖q - p‖ * Real.sin (Complex.arg (q - p)) * (s * -Real.sin (Complex.arg (q - p))) = ‖q - p‖ * s := by
      intro s
      linear_combination (‖q - p‖ * s) * hcs
    rw [this]
    field_simp

example : ∃ k : ℝ, 0 < k ∧ k < 1 ∧ Ampere (k * 1) ((⟨1, 0⟩ : ℂ) - 0) (lammeraner none (some 2) 1 0 ⟨1, 0⟩) := by
  have h : (⟨1, 0⟩ : ℂ) ≠ 0 := fun e => by simpa using congrArg Complex.re e
  obtain ⟨k, h0, h1, _, ha⟩ := lammeraner_ampere (radius := none) (length := some 2) (current := 1) h
    (fun l e => by simp only [Option.some.injEq] at e; rw [← e]; norm_num) (by simp)
  exact ⟨k, h0, h1, ha⟩

/-- **C443.** Inside its wire it makes none. -/
theorem lammeraner_inside {r : ℝ} {length : Option ℝ} {current : ℝ} {p q : ℂ} (h : ‖q - p‖ < r) :
    lammeraner (some r) length current p q = 0 := if_pos h

/-- **C444.** A rotation turns the field by its angle. -/
theorem turned_eq (a : ℝ) (h : ℂ) : turned a h =
    ⟨Real.cos (a / 180 * Real.pi) * h.re - Real.sin (a / 180 * Real.pi) * h.im,
     Real.sin (a / 180 * Real.pi) * h.re + Real.cos (a / 180 * Real.pi) * h.im⟩ := by
  unfold turned
  simp only [Real.cos_add, Real.sin_add]
  have hre : ‖h‖ * Real.cos (Complex.arg h) = h.re := Complex.norm_mul_cos_arg _
  have him : ‖h‖ * Real.sin (Complex.arg h) = h.im := Complex.norm_mul_sin_arg _
  rw [← hre, ← him]
  congr 1 <;> ring

/-- **C444.** The field of a conductor of round wire that is rotated by no angle is that of one that is not rotated. -/
theorem rotation_partial {radius : Option ℝ} {current : ℝ} {p q : ℂ} :
    binns radius (some 0) current p q = binns radius none current p q := by
  have ht : ∀ h : ℂ, turned 0 h = h := by
    intro h
    rw [turned_eq]
    simp
  unfold binns
  simp only [ht]
  cases radius with
  | none => simp only; split_ifs <;> rfl
  | some r => simp only; split_ifs <;> rfl

/-- **C444.** Of one rotated by a right angle it points along the way to the point and not across it. -/
theorem rotation_matters {r current : ℝ} (hc : 0 < current) {p q : ℂ} (hr : 0 < r) (ho : r ≤ ‖q - p‖) :
    ∃ h, binns (some r) (some 90) current p q = .value h ∧ ¬ Ampere current (q - p) h ∧
      0 < h.re * (q - p).re + h.im * (q - p).im := by
  have hd : q ≠ p := by
    intro e
    rw [e, sub_self, norm_zero] at ho
    linarith
  obtain ⟨f, hf⟩ := binns_defined (some r) current hd
  have ha := binns_ampere hd (fun r' e => by simp only [Option.some.injEq] at e; exact e ▸ ho) hf
  have h2 : binns (some r) (some 90) current p q = .value (turned 90 f) := by
    unfold binns at hf ⊢
    simp only at hf ⊢
    rw [hf]
    rfl
  have h90 : (90 : ℝ) / 180 * Real.pi = Real.pi / 2 := by ring
  have hp : 0 < current / (2 * Real.pi) := by have := Real.pi_pos; positivity
  have hs : 0 < (turned 90 f).re * (q - p).re + (turned 90 f).im * (q - p).im := by
    rw [turned_eq, h90, Real.cos_pi_div_two, Real.sin_pi_div_two]
    simp only
    have := ha.clockwise
    linarith
  exact ⟨_, h2, fun hA => by have := hA.across; linarith, hs⟩

/-- A wire of radius 1/10 seen at a distance of one. -/
example : ∃ h, binns (some (1 / 10)) (some 90) 1 0 1 = .value h ∧ ¬ Ampere 1 (1 - 0) h ∧
    0 < h.re * (1 - 0 : ℂ).re + h.im * (1 - 0 : ℂ).im :=
  rotation_matters (by norm_num) (by norm_num) (by norm_num)

/-- **C445.** In the model of Dowell the field of conductors is the ampere-turns of those nearer to the axis over the breadth, those at the same
distance counted half, and it is axial. -/
theorem dowell_staircase {breadth : ℝ} (hb : 0 < breadth) (q : ℂ) : ∀ cs : List (ℝ × ℂ),
    ∃ hs : List ℂ, cs.map (fun c => dowell breadth c.1 c.2 q) = hs.map Outcome.value ∧ hs.sum.re = 0 ∧
      hs.sum.im * breadth = ((cs.map fun c => open Classical in
        if c.2.re < q.re then c.1 else if c.2.re = q.re then c.1 / 2 else 0)).sum
  | [] => ⟨[], rfl, rfl, by simp⟩
  | c :: cs => by
    obtain ⟨hs, h1, h2, h3⟩ := dowell_staircase hb q cs
    have hb' : ¬ breadth ≤ 0 := not_le.mpr hb
    rcases lt_trichotomy c.2.re q.re with h | h | h
    · refine ⟨⟨0, c.1 / breadth⟩ :: hs, ?_, ?_, ?_⟩
      · rw [List.map_cons, List.map_cons, h1]
        simp only [dowell, if_neg hb', if_pos h]
      · simp only [List.sum_cons, Complex.add_re, h2, add_zero]
      · simp only [List.sum_cons, List.map_cons, Complex.add_im, add_mul, h3, if_pos h]
        rw [div_mul_cancel₀ _ hb.ne']
    · refine ⟨⟨0, c.1 / breadth / 2⟩ :: hs, ?_, ?_, ?_⟩
      · rw [List.map_cons, List.map_cons, h1]
        simp only [dowell, if_neg hb', h, lt_irrefl, if_false]
      · simp only [List.sum_cons, Complex.add_re, h2, add_zero]
      · simp only [List.sum_cons, List.map_cons, Complex.add_im, add_mul, h3, h, lt_irrefl, if_false, if_true]
        congr 1
        field_simp
    · refine ⟨⟨0, 0⟩ :: hs, ?_, ?_, ?_⟩
      · rw [List.map_cons, List.map_cons, h1]
        simp only [dowell, if_neg hb', if_neg (not_lt.mpr h.le), if_pos h]
      · simp only [List.sum_cons, Complex.add_re, h2, add_zero]
      · simp only [List.sum_cons, List.map_cons, Complex.add_im, add_mul, h3, if_neg (not_lt.mpr h.le), if_neg h.ne', zero_mul, zero_add]

/-- **C445.** Without a breadth it throws. -/
theorem dowell_throws {breadth : ℝ} (hb : breadth ≤ 0) (current : ℝ) (p q : ℂ) : dowell breadth current p q = .throws := if_pos hb

/-- A conductor of 2 A nearer to the axis, over a breadth of a half. -/
example : ∃ hs : List ℂ, [((2 : ℝ), (0 : ℂ))].map (fun c => dowell (1 / 2) c.1 c.2 ⟨1, 0⟩) = hs.map Outcome.value ∧ hs.sum.re = 0 ∧
    hs.sum.im * (1 / 2) = 2 := by
  obtain ⟨hs, h1, h2, h3⟩ := dowell_staircase (breadth := 1 / 2) (by norm_num) ⟨1, 0⟩ [(2, 0)]
  exact ⟨hs, h1, h2, by rw [h3]; simp⟩

end Verif.LineField
