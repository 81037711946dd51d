import Verif.Autocomplete.Mas
import Verif.Autocomplete.InputsProps
import Verif.Excitation.CurrentProps

/-! # The completion of a magnetic with its inputs: specification and theorems -/

namespace Verif.Autocomplete

open Verif.Waveforms (Waveform Label Res)
open Verif.Excitation

set_option linter.unusedSectionVars false
set_option linter.unusedSimpArgs false

variable {K : Type} [Field K] [LinearOrder K] [IsStrictOrderedRing K] [FloorRing K]

/-! ## Specification -/

/-- Two excitations with the same voltage and frequency, whose currents are processed and of none of the labels whose magnetizing current is made of the
current itself; otherwise the currents may be any. -/
def SameVoltage (e e' : Exc K) : Prop :=
  e.frequency = e'.frequency ∧ e.voltage = e'.voltage ∧
    (∃ c p, e.current = some c ∧ c.processed = some p ∧ p.label ≠ .flybackPrimary ∧ p.label ≠ .flybackSecondary ∧ p.label ≠ .unipolarTriangular) ∧
    ∃ c p, e'.current = some c ∧ c.processed = some p ∧ p.label ≠ .flybackPrimary ∧ p.label ≠ .flybackSecondary ∧ p.label ≠ .unipolarTriangular

/-! ## Lemmas -/

theorem current_by_voltage (T : Tools K) (e : Exc K) (s : Waveform K) (L dc : K) (c : Signal K) (p : Processed K) (hc : e.current = some c)
    (hp : c.processed = some p) (h1 : p.label ≠ .flybackPrimary) (h2 : p.label ≠ .flybackSecondary) (h3 : p.label ≠ .unipolarTriangular) :
    magnetizingWaveform T e s L dc = fromVoltage s L dc := by
  simp [magnetizingWaveform, hc, hp, isRamp, h1, h2, h3]

theorem magnetizingCurrent_same (T : Tools K) (e e' : Exc K) (h : SameVoltage e e') (s : Waveform K) (L : K) (b : Bool) (dc : K) :
    magnetizingCurrent T e s L b dc = magnetizingCurrent T e' s L b dc := by
  obtain ⟨hf, -, ⟨c, p, h1, h2, h3, h4, h5⟩, c', p', g1, g2, g3, g4, g5⟩ := h
  simp only [magnetizingCurrent, current_by_voltage T e s L dc c p h1 h2 h3 h4 h5, current_by_voltage T e' s L dc c' p' g1 g2 g3 g4 g5, hf]

theorem magnetizeAgain_spec {X : Extra K} {L : K} : ∀ (n : ℕ) (l r : List (Exc K)), magnetizeAgain X L n l = .ok r →
    r.length = l.length ∧ n ≤ l.length ∧ ∀ (i : ℕ) (e e' : Exc K), l[i]? = some e → r[i]? = some e' →
      (i < n → ∃ m, magnetizingAgain X L e = .ok m ∧ e' = { e with magnetizing := some m }) ∧ (n ≤ i → e' = e)
  | 0, l, r, h => by
    simp only [magnetizeAgain, Res.ok.injEq] at h
    subst h
    refine ⟨rfl, by omega, fun i e e' h1 h2 => ⟨by omega, fun _ => ?_⟩⟩
    rw [h1] at h2
    simpa [eq_comm] using h2
  | n + 1, [], r, h => by simp [magnetizeAgain] at h
  | n + 1, e :: l, r, h => by
    simp only [magnetizeAgain] at h
    obtain ⟨m, hm, h⟩ := bind_ok h
    obtain ⟨l', hl, h⟩ := bind_ok h
    simp only [Res.ok.injEq] at h
    subst h
    obtain ⟨a, b, c⟩ := magnetizeAgain_spec n l l' hl
    refine ⟨by simp [a], by simp; omega, fun i x x' h1 h2 => ?_⟩
    cases i with
    | zero =>
      simp only [List.getElem?_cons_zero, Option.some.injEq] at h1 h2
      subst h1 h2
      exact ⟨fun _ => ⟨m, hm, rfl⟩, by omega⟩
    | succ i =>
      simp only [List.getElem?_cons_succ] at h1 h2
      obtain ⟨d1, d2⟩ := c i x x' h1 h2
      exact ⟨fun hi => d1 (by omega), fun hi => d2 (by omega)⟩

theorem magnetizeAgain_short (X : Extra K) (L : K) : ∀ (n : ℕ) (l : List (Exc K)), l.length < n → ∀ r, magnetizeAgain X L n l ≠ .ok r
  | 0, l, h, r => by omega
  | n + 1, [], h, r => by simp [magnetizeAgain]
  | n + 1, e :: l, h, r => fun hr => by
    obtain ⟨-, b, -⟩ := magnetizeAgain_spec (n + 1) (e :: l) r hr
    omega

/-! ## Theorems -/

/-- **C261.** Whatever the simulation leaves, all windings of the operating points that come out, as many as turns ratios and one, have the magnetizing
current that their voltage has with the inductance of the magnetic at that operating point; current, voltage and frequency are those of the operating point
processed with that inductance. -/
theorem mas_points {M I : Type} (X : Extra K) (magnetic : M → I → Res M) (inputs : I → M → Res I) (simulation : Option (I → M → Res (M × I)))
    (ratios : I → ℕ) (points : I → List (List (Exc K))) (setPoints : I → List (List (Exc K)) → I) (hset : ∀ i ps, points (setPoints i ps) = ps)
    (inductance : M → List (Exc K) → Res (K × List (Exc K))) (process : List (Exc K) → K → Res (List (Exc K))) (m : M) (i : I) (out : M × I)
    (h : mas X magnetic inputs simulation ratios points setPoints inductance process m i = .ok out) :
    ∃ m1 i1 i2, magnetic m i = .ok m1 ∧ inputs i m1 = .ok i1 ∧
      (simulation = none → out.1 = m1 ∧ i2 = i1) ∧ (∀ f, simulation = some f → f i1 m1 = .ok (out.1, i2)) ∧
      List.Forall₂ (fun p q : List (Exc K) => ∃ L p1 p2, inductance out.1 p = .ok (L, p1) ∧ process p1 L = .ok p2 ∧ q.length = p2.length ∧
        ratios i1 + 1 ≤ p2.length ∧ ∀ (k : ℕ) (e e' : Exc K), p2[k]? = some e → q[k]? = some e' →
          e'.current = e.current ∧ e'.voltage = e.voltage ∧ e'.frequency = e.frequency ∧
          (k < ratios i1 + 1 → ∃ c, magnetizingAgain X L e = .ok c ∧ e'.magnetizing = some c) ∧ (ratios i1 + 1 ≤ k → e' = e))
        (points i2) (points out.2) := by
  unfold mas at h
  obtain ⟨m1, h1, h⟩ := bind_ok h
  obtain ⟨i1, h2, h⟩ := bind_ok h
  obtain ⟨⟨m2, i2⟩, h3, h⟩ := bind_ok h
  obtain ⟨ps, h4, h⟩ := bind_ok h
  simp only [Res.ok.injEq] at h
  subst h
  refine ⟨m1, i1, i2, h1, h2, fun hs => ?_, fun f hs => ?_, ?_⟩
  · subst hs
    simp only [simulated, Res.ok.injEq, Prod.mk.injEq] at h3
    exact ⟨h3.1.symm, h3.2.symm⟩
  · subst hs
    exact h3
  · simp only [hset]
    refine (overAll_spec _ _ h4).imp fun p q this => ?_
    unfold pointAgain at this
    obtain ⟨⟨L, p1⟩, g1, this⟩ := bind_ok this
    obtain ⟨p2, g2, this⟩ := bind_ok this
    obtain ⟨a, b, c⟩ := magnetizeAgain_spec _ _ _ this
    refine ⟨L, p1, p2, g1, g2, a, b, fun j e e' he he' => ?_⟩
    obtain ⟨d1, d2⟩ := c j e e' he he'
    by_cases hj : j < ratios i1 + 1
    · obtain ⟨x, x1, rfl⟩ := d1 hj
      exact ⟨rfl, rfl, rfl, fun _ => ⟨x, x1, rfl⟩, fun hn => absurd hj (by omega)⟩
    · rw [d2 (by omega)]
      exact ⟨rfl, rfl, rfl, fun hn => absurd hn hj, fun _ => rfl⟩

/-- **C261.** Neither completion lets a bias of the current into the magnetizing current: with the same voltage it is the same for any two currents, whatever
their offsets, unless they are of the labels whose magnetizing current is made of the current itself. -/
theorem bias_invisible (X : Extra K) (L : K) (e e' : Exc K) (h : SameVoltage e e') :
    magnetizingOf X L e = magnetizingOf X L e' ∧ magnetizingAgain X L e = magnetizingAgain X L e' := by
  have hm := magnetizingCurrent_same X.tools e e' h
  obtain ⟨hf, hv, -⟩ := h
  constructor
  · simp only [magnetizingOf, hv, hf, hm, withDuty]
  · simp only [magnetizingAgain, hv, hf, hm]

/-- **C261.** The magnetizing current so made has no mean: with a sampled voltage of increasing times it is zero, before compression, whatever the current. -/
theorem completed_unbiased (X : Extra K) (L : K) (e : Exc K) (c : Signal K) (p : Processed K) (hc : e.current = some c) (hp : c.processed = some p)
    (h1 : p.label ≠ .flybackPrimary) (h2 : p.label ≠ .flybackSecondary) (h3 : p.label ≠ .unipolarTriangular) (hL : 0 < L)
    (s : Waveform K) (ts : List K) (hs : Increasing s ts) :
    ∃ w, magnetizingWaveform X.tools e s L 0 = .ok w ∧ Waveforms.average w = .ok 0 := by
  rw [current_by_voltage X.tools e s L 0 c p hc hp h1 h2 h3]
  obtain ⟨w, hw, -, -, -, ha⟩ := faraday s ts L 0 hs hL
  exact ⟨w, hw, ha⟩

/-- **C261.** With a current of one of those labels, it is the current that the magnetizing current is made of, so that the bias is kept. -/
theorem ramp_biased_partial (X : Extra K) (e : Exc K) (c : Signal K) (p : Processed K) (pp : K) (hc : e.current = some c) (hp : c.processed = some p)
    (hl : p.label = .flybackPrimary ∨ p.label = .flybackSecondary ∨ p.label = .unipolarTriangular) (hpp : p.peakToPeak = some pp) (h0 : 0 ≤ pp)
    (hf : 0 < e.frequency) (L : K) (s w : Waveform K) (hw : magnetizingWaveform X.tools e s L 0 = .ok w) :
    ∀ x ∈ w.data, p.offset ≤ x ∧ x ≤ p.offset + pp :=
  (ramp_from_current X.tools e s L 0 c p hc hp hl).2 w pp hpp h0 hf hw

/-! ## A case -/

/-- A winding with a square voltage and a current around a bias. -/
def biased (bias : ℚ) : Exc ℚ :=
  { frequency := 1, magnetizing := none
    voltage := some ⟨some ⟨[8, 8, -8, -8], some [0, 1 / 4, 1 / 2, 3 / 4], none⟩, none, none⟩
    current := some ⟨some ⟨[bias - 1, bias, bias + 1, bias], some [0, 1 / 4, 1 / 2, 3 / 4], none⟩, none,
      some ⟨.triangular, bias, none, none, none, none⟩⟩ }

/-- **C261.** A choke with a bias of 100 gets the magnetizing current it would have without any. -/
theorem bias_lost_example : SameVoltage (biased 100) (biased 0) ∧ (∃ c, magnetizingAgain extra 1 (biased 100) = .ok c) ∧
    magnetizingAgain extra 1 (biased 100) = magnetizingAgain extra 1 (biased 0) := by
  have hs : SameVoltage (biased 100) (biased 0) :=
    ⟨rfl, rfl, ⟨_, _, rfl, rfl, by decide, by decide, by decide⟩, _, _, rfl, rfl, by decide, by decide, by decide⟩
  refine ⟨hs, ?_, (bias_invisible extra 1 _ _ hs).2⟩
  have h : (match magnetizingAgain extra 1 (biased 100) with
    | .ok _ => true
    | _ => false) = true := by decide +kernel
  split at h
  · rename_i c hc; exact ⟨c, hc⟩
  · simp at h

/-- Inputs that are completed to the end, without a simulation. -/
example : (match mas (M := Unit) (I := List (List (Exc ℚ))) extra (fun m _ => .ok m) (fun i _ => .ok i) none (fun _ => 0) id (fun _ ps => ps)
    (fun _ p => .ok (1, p)) (fun p _ => .ok p) () [[biased 100], [biased 1]] with
    | .ok (_, ps) => decide (ps.length = 2)
    | _ => false) = true := by decide +kernel
example : Increasing (⟨[8, 8, -8, -8], some [0, 1 / 4, 1 / 2, 3 / 4], none⟩ : Waveform ℚ) [0, 1 / 4, 1 / 2, 3 / 4] :=
  ⟨rfl, rfl, by decide, by decide +kernel⟩

end Verif.Autocomplete
