import Verif.Excitation.Integrity
import Verif.Excitation.CurrentProps
import Verif.Excitation.ChokeProps

/-! # The completion of the operating points: specification and theorems -/

namespace Verif.Excitation

open Verif.Waveforms (Waveform Label Res)

set_option linter.unusedSectionVars false
set_option linter.unusedSimpArgs false

variable {K : Type} [Field K] [LinearOrder K] [IsStrictOrderedRing K] [FloorRing K]

/-! ## Specification -/

/-- A signal with a waveform that has times. -/
def Standard (s : Signal K) : Prop := ∃ w ts, s.waveform = some w ∧ w.time = some ts

/-- A winding whose current is there, and whose signals all have waveforms with times. -/
def Complete (e : Exc K) : Prop := (∃ c, e.current = some c ∧ Standard c) ∧ ∀ v, e.voltage = some v → Standard v

/-- What a winding keeps of what was given: the frequency, the magnetizing current, the signals that already had
waveforms with times, as they were, and the waveform, harmonics and processed data of any signal. -/
def Keeps (e e' : Exc K) : Prop :=
  e'.frequency = e.frequency ∧ e'.magnetizing = e.magnetizing ∧
    (∀ v, e.voltage = some v → ∃ v', e'.voltage = some v' ∧ v'.harmonics = v.harmonics ∧ v'.processed = v.processed ∧
      (∀ w, v.waveform = some w → ∃ w', v'.waveform = some w' ∧ w'.data = w.data ∧ w'.label = w.label) ∧
      (Standard v → v' = v)) ∧
    (e.voltage = none → e'.voltage = none) ∧
    (∀ c, e.current = some c → ∃ c', e'.current = some c' ∧ c'.harmonics = c.harmonics ∧ c'.processed = c.processed ∧
      (∀ w, c.waveform = some w → ∃ w', c'.waveform = some w' ∧ w'.data = w.data ∧ w'.label = w.label) ∧
      (Standard c → c' = c))

/-! ## Lemmas -/

theorem bind_ok {A B : Type} {r : Res A} {f : A → Res B} {b : B} (h : r.bind f = .ok b) :
    ∃ a, r = .ok a ∧ f a = .ok b := by
  cases r with
  | ok a => exact ⟨a, rfl, h⟩
  | throws | nan | ub => all_goals simp [Res.bind] at h

theorem isStandard_iff (s : Signal K) : isStandard s = true ↔ Standard s := by
  unfold isStandard Standard
  cases s.waveform with
  | none => simp
  | some w => cases h : w.time <;> simp [h]

theorem withTimes_spec {f : K} {s s' : Signal K} {w : Waveform K} (h : withTimes f s w = .ok s') :
    Standard s' ∧ s'.harmonics = s.harmonics ∧ s'.processed = s.processed ∧
      (∃ w', s'.waveform = some w' ∧ w'.data = w.data ∧ w'.label = w.label) ∧
      (w.time ≠ none → s' = { s with waveform := some w }) := by
  unfold withTimes at h
  cases ht : w.time with
  | some ts =>
    rw [ht] at h
    simp only [Res.ok.injEq] at h
    subst h
    exact ⟨⟨w, ts, rfl, ht⟩, rfl, rfl, ⟨w, rfl, rfl, rfl⟩, fun _ => rfl⟩
  | none =>
    rw [ht] at h
    simp only at h
    by_cases h0 : Round.roundFloat f 9 = 0
    · rw [if_pos h0] at h; simp at h
    · rw [if_neg h0] at h
      simp only [Res.ok.injEq] at h
      subst h
      exact ⟨⟨_, _, rfl, rfl⟩, rfl, rfl, ⟨_, rfl, rfl, rfl⟩, fun hn => absurd rfl hn⟩

theorem standardize_spec {B : Builders K} {f : K} {s s' : Signal K} (h : standardize B f s = .ok s') :
    Standard s' ∧ s'.harmonics = s.harmonics ∧ s'.processed = s.processed ∧
      (∀ w, s.waveform = some w → ∃ w', s'.waveform = some w' ∧ w'.data = w.data ∧ w'.label = w.label) ∧
      (Standard s → s' = s) := by
  unfold standardize at h
  cases hw : s.waveform with
  | some w =>
    rw [hw] at h
    simp only at h
    obtain ⟨h1, h2, h3, h4, h5⟩ := withTimes_spec h
    refine ⟨h1, h2, h3, fun w' hw' => by simp only [Option.some.injEq] at hw'; subst hw'; exact h4, ?_⟩
    rintro ⟨w', ts, e1, e2⟩
    rw [hw] at e1
    simp only [Option.some.injEq] at e1
    subst e1
    rw [h5 (by rw [e2]; simp)]
    cases s; simp_all
  | none =>
    rw [hw] at h
    simp only at h
    have hns : ¬ Standard s := by rintro ⟨w, ts, e, -⟩; rw [hw] at e; simp at e
    cases hp : s.processed with
    | some p =>
      rw [hp] at h
      obtain ⟨w, -, h⟩ := bind_ok h
      obtain ⟨h1, h2, h3, -, -⟩ := withTimes_spec h
      exact ⟨h1, h2, h3.trans hp, by simp, fun hs => absurd hs hns⟩
    | none =>
      rw [hp] at h
      simp only at h
      cases hh : s.harmonics with
      | none => rw [hh] at h; simp at h
      | some hs =>
        rw [hh] at h
        obtain ⟨w, -, h⟩ := bind_ok h
        obtain ⟨h1, h2, h3, -, -⟩ := withTimes_spec h
        exact ⟨h1, h2.trans hh, h3.trans hp, by simp, fun hs => absurd hs hns⟩

theorem standardize_standard (B : Builders K) (f : K) (s : Signal K) (h : Standard s) : standardize B f s = .ok s := by
  obtain ⟨w, ts, h1, h2⟩ := h
  unfold standardize withTimes
  rw [h1]
  simp only [h2, Res.ok.injEq]
  cases s; simp_all

theorem compress_times {w c : Waveform K} (h : Waveforms.compress w = .ok c) (ht : w.time ≠ none) : c.time ≠ none := by
  unfold Waveforms.compress at h
  split at h
  · split at h
    · simp at h
    · split at h
      · obtain ⟨⟨cd, ct⟩, -, h⟩ := bind_ok h
        simp only [Res.ok.injEq] at h
        subst h; simp
      · simp only [Res.ok.injEq] at h; subst h; exact ht
  · simp only [Res.ok.injEq] at h; subst h; exact ht

theorem integral_times {w c : Waveform K} {b : Bool} (h : Waveforms.integral w b = .ok c) : c.time ≠ none := by
  unfold Waveforms.integral at h
  cases ht : w.time with
  | none => rw [ht] at h; simp at h
  | some ts =>
    rw [ht] at h
    simp only at h
    split at h
    · simp at h
    · obtain ⟨r, -, h⟩ := bind_ok h
      obtain ⟨⟨d, t⟩, -, h⟩ := bind_ok h
      simp only [Res.ok.injEq] at h
      subst h; simp

theorem sampled_times {w c : Waveform K} {f : K} {p : Option Nat} {N : Nat} (h : Waveforms.sampled w f p N = .ok c) :
    c.time ≠ none := by
  unfold Waveforms.sampled at h
  split at h
  · simp at h
  · obtain ⟨⟨time, g⟩, -, h⟩ := bind_ok h
    simp only at h
    split at h
    · simp at h
    · obtain ⟨vs, -, h⟩ := bind_ok h
      simp only [Res.ok.injEq] at h
      subst h; simp

theorem magnetizingWaveform_times {T : Tools K} {e : Exc K} {v w : Waveform K} {L dc : K}
    (h : magnetizingWaveform T e v L dc = .ok w) : w.time ≠ none := by
  have hv : ∀ {w : Waveform K}, fromVoltage v L dc = .ok w → w.time ≠ none := by
    intro w h
    obtain ⟨r, h1, h⟩ := bind_ok h
    simp only [Res.ok.injEq] at h
    subst h
    have := integral_times h1
    simpa only [Waveforms.sum, Waveforms.multiply] using this
  unfold magnetizingWaveform at h
  split at h
  · exact hv h
  · split at h
    · simp at h
    · split at h
      · unfold fromRamp at h
        split at h
        · simp at h
        · obtain ⟨d, -, h⟩ := bind_ok h
          obtain ⟨r, -, h⟩ := bind_ok h
          exact sampled_times h
      · exact hv h

theorem magnetizing_standard {T : Tools K} {e : Exc K} {v : Waveform K} {L dc : K} {b : Bool} {s : Signal K}
    (h : magnetizingCurrent T e v L b dc = .ok s) : Standard s := by
  unfold magnetizingCurrent at h
  split at h
  · simp at h
  · obtain ⟨w, hw, h⟩ := bind_ok h
    obtain ⟨c, hc, h⟩ := bind_ok h
    obtain ⟨hs, -, h⟩ := bind_ok h
    obtain ⟨p, -, h⟩ := bind_ok h
    obtain ⟨hi, -, h⟩ := bind_ok h
    obtain ⟨lo, -, h⟩ := bind_ok h
    simp only [Res.ok.injEq] at h
    subst h
    have ht := magnetizingWaveform_times hw
    have : c.time ≠ none := by
      cases b with
      | true => exact compress_times hc ht
      | false =>
        simp only [Bool.false_eq_true, if_false, Res.ok.injEq] at hc
        rw [← hc]; exact ht
    obtain ⟨ts, hts⟩ := Option.ne_none_iff_exists'.mp this
    exact ⟨c, ts, rfl, hts⟩

/-! ## C247: the operating points are complete when the inputs have been read -/

/-- **C247.** A current worked out of the voltage holds no offset, whatever is decided about it: the decision can only make
it fail. -/
theorem derived_current (T : Tools K) (windings : List (Exc K)) (ratios : Nat) (inductance : Res K) (e e' : Exc K)
    (hc : e.current = none) (h : derive T windings ratios inductance e = .ok e') :
    ∃ (v : Signal K) (w s : Waveform K) (L : K) (c : Signal K), e.voltage = some v ∧ v.waveform = some w ∧
      Waveforms.sampled w e.frequency none T.setting = .ok s ∧ inductance = .ok L ∧
      magnetizingCurrent T e s L true 0 = .ok c ∧ e' = { e with current := some c } := by
  unfold derive at h
  cases hv : e.voltage with
  | none => rw [hv] at h; simp at h
  | some v =>
    rw [hv] at h
    simp only [Option.bind_some] at h
    cases hw : v.waveform with
    | none => rw [hw] at h; simp at h
    | some w =>
      rw [hw] at h
      simp only at h
      obtain ⟨s, hs, h⟩ := bind_ok h
      obtain ⟨b, -, h⟩ := bind_ok h
      obtain ⟨L, hL, h⟩ := bind_ok h
      obtain ⟨⟨e2, c⟩, hm, hend⟩ := bind_ok h
      simp only [Res.ok.injEq] at hend
      unfold magnetizingWithOffset at hm
      split at hm
      · simp at hm
      · obtain ⟨⟨e3, dc⟩, ho, hm⟩ := bind_ok hm
        obtain ⟨c', hc', hm⟩ := bind_ok hm
        simp only [Res.ok.injEq, Prod.mk.injEq] at hm
        obtain ⟨rfl, rfl⟩ := hm
        have : e3 = e ∧ dc = 0 := by
          cases b with
          | false =>
            rw [(no_offset T e).1] at ho
            simp only [Res.ok.injEq, Prod.mk.injEq] at ho
            exact ⟨ho.1.symm, ho.2.symm⟩
          | true =>
            rw [(no_offset T e).2 hc] at ho
            simp only [Res.ok.injEq, Prod.mk.injEq] at ho
            exact ⟨ho.1.symm, ho.2.symm⟩
        obtain ⟨rfl, rfl⟩ := this
        rw [hv] at hend
        exact ⟨v, w, s, L, c', rfl, hw, hs, hL, hc', hend.symm⟩

theorem standardizeIf_spec {B : Builders K} {f : K} {o o' : Option (Signal K)} (h : standardizeIf B f o = .ok o') :
    (o = none → o' = none) ∧ ∀ v, o = some v → ∃ v', o' = some v' ∧ standardize B f v = .ok v' := by
  cases o with
  | none => simp only [standardizeIf, Res.ok.injEq] at h; subst h; simp
  | some v =>
    simp only [standardizeIf] at h
    obtain ⟨v', h1, h2⟩ := bind_ok h
    simp only [Res.ok.injEq] at h2
    subst h2
    simp [h1]

theorem complete_spec {B : Builders K} {T : Tools K} {ratios : Nat} {inductance : Res K} {done rest : List (Exc K)}
    {e e' : Exc K} (h : complete B T ratios inductance done e rest = .ok e') : Complete e' ∧ Keeps e e' := by
  unfold complete at h
  obtain ⟨v, hv, h⟩ := bind_ok h
  obtain ⟨hvn, hvs⟩ := standardizeIf_spec hv
  have hvolt : ∀ x, v = some x → Standard x := by
    intro x hx
    cases hev : e.voltage with
    | none => rw [hvn hev] at hx; simp at hx
    | some y =>
      obtain ⟨y', hy1, hy2⟩ := hvs y hev
      rw [hy1] at hx
      simp only [Option.some.injEq] at hx
      subst hx
      exact (standardize_spec hy2).1
  have hkv : ∀ y, e.voltage = some y → ∃ v', v = some v' ∧ v'.harmonics = y.harmonics ∧ v'.processed = y.processed ∧
      (∀ w, y.waveform = some w → ∃ w', v'.waveform = some w' ∧ w'.data = w.data ∧ w'.label = w.label) ∧
      (Standard y → v' = y) := by
    intro y hy
    obtain ⟨y', h1, h2⟩ := hvs y hy
    obtain ⟨-, a, b, c, d⟩ := standardize_spec h2
    exact ⟨y', h1, a, b, c, d⟩
  cases hc : e.current with
  | some c =>
    rw [hc] at h
    simp only at h
    obtain ⟨c', hc', h⟩ := bind_ok h
    simp only [Res.ok.injEq] at h
    subst h
    obtain ⟨a0, a, b, d, g⟩ := standardize_spec hc'
    refine ⟨⟨⟨c', rfl, a0⟩, fun x hx => hvolt x hx⟩, rfl, rfl, hkv, hvn, ?_⟩
    intro x hx
    rw [hc] at hx
    simp only [Option.some.injEq] at hx
    subst hx
    exact ⟨c', rfl, a, b, d, g⟩
  | none =>
    rw [hc] at h
    simp only at h
    obtain ⟨v0, w, s, L, c, g1, g2, g3, g4, g5, g6⟩ := derived_current T _ ratios inductance
      ⟨e.frequency, v, none, e.magnetizing⟩ e' rfl h
    subst g6
    refine ⟨⟨⟨c, rfl, magnetizing_standard g5⟩, fun x hx => hvolt x hx⟩, rfl, rfl, hkv, hvn, ?_⟩
    intro x hx
    rw [hc] at hx
    simp at hx

theorem completeFrom_spec {B : Builders K} {T : Tools K} {ratios : Nat} {inductance : Res K} :
    ∀ (rest done out : List (Exc K)), completeFrom B T ratios inductance done rest = .ok out →
      ∃ tail, out = done ++ tail ∧ List.Forall₂ (fun e e' => Complete e' ∧ Keeps e e') rest tail
  | [], done, out, h => by
    simp only [completeFrom, Res.ok.injEq] at h
    exact ⟨[], by simp [h], List.Forall₂.nil⟩
  | e :: rest, done, out, h => by
    simp only [completeFrom] at h
    obtain ⟨e', h1, h2⟩ := bind_ok h
    obtain ⟨tail, h3, h4⟩ := completeFrom_spec rest (done ++ [e']) out h2
    exact ⟨e' :: tail, by rw [h3]; simp, List.Forall₂.cons (complete_spec h1) h4⟩

theorem overAll_spec {A B : Type} {f : A → Res B} : ∀ (l : List A) (m : List B), overAll f l = .ok m →
    List.Forall₂ (fun a b => f a = .ok b) l m
  | [], m, h => by simp only [overAll, Res.ok.injEq] at h; subst h; exact List.Forall₂.nil
  | a :: l, m, h => by
    simp only [overAll] at h
    obtain ⟨b, h1, h⟩ := bind_ok h
    obtain ⟨bs, h2, h⟩ := bind_ok h
    simp only [Res.ok.injEq] at h
    subst h
    exact List.Forall₂.cons h1 (overAll_spec l bs h2)

theorem overAll_same {A : Type} {f : A → Res A} : ∀ (l : List A), (∀ a ∈ l, f a = .ok a) → overAll f l = .ok l
  | [], _ => rfl
  | a :: l, h => by
    simp only [overAll]
    rw [h a (by simp), overAll_same l (fun x hx => h x (List.mem_cons_of_mem _ hx))]
    rfl

theorem reflectIf_spec {s r : Option (Signal K)} {n : K} (h : reflectIf s n = .ok r) :
    (s = none → r = none) ∧ ∀ x, s = some x → ∃ (y : Signal K) (w : Waveform K), r = some y ∧ x.waveform = some w ∧
      y.waveform = some { w with data := w.data.map (· * n) } := by
  cases s with
  | none => simp only [reflectIf, Res.ok.injEq] at h; subst h; simp
  | some x =>
    simp only [reflectIf] at h
    obtain ⟨y, h1, h2⟩ := bind_ok h
    simp only [Res.ok.injEq] at h2
    subst h2
    refine ⟨by simp, ?_⟩
    intro x' hx'
    simp only [Option.some.injEq] at hx'
    subst hx'
    simp only [reflect] at h1
    cases hw : x.waveform with
    | none => rw [hw] at h1; simp at h1
    | some w =>
      rw [hw] at h1
      simp only [Res.ok.injEq] at h1
      subst h1
      exact ⟨_, w, rfl, rfl, rfl⟩

/-- **C247.** The secondary that is made carries the voltage of the primary over the turns ratio, if it has one, and its
current times the turns ratio, at the frequency of the primary. -/
theorem made_secondary (primary s : Exc K) (n : K) (h : secondary primary n = .ok s) :
    s.frequency = primary.frequency ∧ (primary.voltage = none ↔ s.voltage = none) ∧
      (primary.current = none ↔ s.current = none) ∧
      (∀ v, primary.voltage = some v → ∃ (v' : Signal K) (w : Waveform K), s.voltage = some v' ∧ v.waveform = some w ∧
        v'.waveform = some { w with data := w.data.map (· / n) } ∧ n ≠ 0) ∧
      (∀ c, primary.current = some c → ∃ (c' : Signal K) (w : Waveform K), s.current = some c' ∧ c.waveform = some w ∧
        c'.waveform = some { w with data := w.data.map (· * n) }) := by
  have key : ∀ (v c : Option (Signal K)), (if n = 0 ∧ v ≠ none then Res.nan
      else (reflectIf v (1 / n)).bind fun v => (reflectIf c n).bind fun c =>
        .ok { primary with voltage := v, current := c }) = Res.ok s →
      s.frequency = primary.frequency ∧ (v = none ↔ s.voltage = none) ∧ (c = none ↔ s.current = none) ∧
      (∀ x, v = some x → ∃ (v' : Signal K) (w : Waveform K), s.voltage = some v' ∧ x.waveform = some w ∧
        v'.waveform = some { w with data := w.data.map (· / n) } ∧ n ≠ 0) ∧
      (∀ x, c = some x → ∃ (c' : Signal K) (w : Waveform K), s.current = some c' ∧ x.waveform = some w ∧
        c'.waveform = some { w with data := w.data.map (· * n) }) := by
    intro v c h
    by_cases hz : n = 0 ∧ v ≠ none
    · rw [if_pos hz] at h; simp at h
    · rw [if_neg hz] at h
      obtain ⟨v', hv, h⟩ := bind_ok h
      obtain ⟨c', hc, h⟩ := bind_ok h
      simp only [Res.ok.injEq] at h
      subst h
      obtain ⟨a1, a2⟩ := reflectIf_spec hv
      obtain ⟨b1, b2⟩ := reflectIf_spec hc
      refine ⟨rfl, ⟨a1, fun hn => ?_⟩, ⟨b1, fun hn => ?_⟩, ?_, ?_⟩
      · cases v with
        | none => rfl
        | some x => obtain ⟨y, w, e, -, -⟩ := a2 x rfl; simp only at hn; rw [e] at hn; simp at hn
      · cases c with
        | none => rfl
        | some x => obtain ⟨y, w, e, -, -⟩ := b2 x rfl; simp only at hn; rw [e] at hn; simp at hn
      · intro x hx
        obtain ⟨y, w, e1, e2, e3⟩ := a2 x hx
        refine ⟨y, w, e1, e2, ?_, fun h0 => hz ⟨h0, by rw [hx]; simp⟩⟩
        rw [e3]
        simp only [mul_one_div]
      · intro x hx
        obtain ⟨y, w, e1, e2, e3⟩ := b2 x hx
        exact ⟨y, w, e1, e2, e3⟩
  unfold secondary at h
  split at h
  · simp at h
  · exact key _ _ h

theorem secondary_complete {primary s : Exc K} {n : K} (hp : Complete primary) (h : secondary primary n = .ok s) :
    Complete s := by
  obtain ⟨-, hv, -, hv', hc'⟩ := made_secondary primary s n h
  obtain ⟨⟨c, hc, w0, ts0, h1, h2⟩, hvolt⟩ := hp
  obtain ⟨c', w, e1, e2, e3⟩ := hc' c hc
  refine ⟨⟨c', e1, _, ts0, e3, ?_⟩, ?_⟩
  · rw [e2] at h1; simp only [Option.some.injEq] at h1; subst h1; exact h2
  · intro v hsv
    cases hpv : primary.voltage with
    | none => rw [hv.mp hpv] at hsv; simp at hsv
    | some y =>
      obtain ⟨v', w', g1, g2, g3, -⟩ := hv' y hpv
      rw [g1] at hsv
      simp only [Option.some.injEq] at hsv
      subst hsv
      obtain ⟨w1, ts1, k1, k2⟩ := hvolt y hpv
      rw [g2] at k1
      simp only [Option.some.injEq] at k1
      subst k1
      exact ⟨_, ts1, g3, k2⟩

/-- **C247.** Only one missing secondary is made up: with any other number of turns ratios above that of the secondaries
given, it is refused; the primary, complete by then, always has something to reflect. -/
theorem missing_windings (ratios : List K) (primary : Exc K) (others : List (Exc K)) :
    (ratios.length ≤ others.length → addMissing ratios (primary :: others) = .ok (primary :: others, false)) ∧
      (others.length < ratios.length → (ratios.length ≠ 1 ∨ others ≠ []) →
        addMissing ratios (primary :: others) = .throws) ∧
      (∀ n, ratios = [n] → others = [] → n ≠ 0 → Complete primary →
        ∃ s, secondary primary n = .ok s ∧ addMissing ratios (primary :: others) = .ok ([primary, s], true)) := by
  refine ⟨?_, ?_, ?_⟩
  · intro h
    unfold addMissing
    simp only
    rw [if_neg (by omega)]
  · intro h hne
    unfold addMissing
    simp only
    rw [if_pos h]
    split
    · rename_i n
      rcases hne with hne | hne
      · simp at hne
      · simp at hne
    · rfl
  · rintro n rfl rfl hn hp
    obtain ⟨⟨c, hc, wc, tc, h1, h2⟩, hv⟩ := hp
    have hs : ∃ s, secondary primary n = .ok s := by
      unfold secondary
      rw [hc]
      cases hpv : primary.voltage with
      | none =>
        simp only
        rw [if_neg (by simp)]
        simp only [reflectIf, reflect, h1, Res.bind]
        exact ⟨_, rfl⟩
      | some v =>
        obtain ⟨wv, tv, k1, k2⟩ := hv v hpv
        simp only
        rw [if_neg (by simp [hn])]
        simp only [reflectIf, reflect, h1, k1, Res.bind]
        exact ⟨_, rfl⟩
    obtain ⟨s, hs⟩ := hs
    refine ⟨s, hs, ?_⟩
    unfold addMissing
    simp only
    rw [if_pos (by simp), hs]
    rfl

/-- **C247.** When the operating points pass, there are as many, every winding has a current, and every signal a waveform
with times; each has a winding per turns ratio besides the primary at least; and the windings given come first and keep
what was given of them. -/
theorem checked_complete (B : Builders K) (T : Tools K) (ratios : Res (List K)) (inductance : Res K)
    (points out : List (List (Exc K))) (made : Bool)
    (h : checked B T ratios inductance points = .ok (out, made)) :
    ∃ rs, ratios = .ok rs ∧ (∀ p ∈ points, p ≠ []) ∧
      List.Forall₂ (fun p q => (∀ e ∈ q, Complete e) ∧ rs.length + 1 ≤ q.length ∧ p.length ≤ q.length ∧
        (q.length = p.length ∨ (p.length = 1 ∧ q.length = 2 ∧ rs.length = 1)) ∧
        ∀ (i : Nat) (e e' : Exc K), p[i]? = some e → q[i]? = some e' → Keeps e e') points out := by
  unfold checked at h
  split at h
  · simp at h
  rename_i hany
  have hne : ∀ p ∈ points, p ≠ [] := by
    intro p hp he
    exact hany (List.any_eq_true.mpr ⟨p, hp, by simpa using he⟩)
  obtain ⟨rs, hrs, g⟩ := bind_ok h
  obtain ⟨ps, hps, g'⟩ := bind_ok g
  obtain ⟨r, hr, hend⟩ := bind_ok g'
  simp only [Res.ok.injEq, Prod.mk.injEq] at hend
  obtain ⟨rfl, -⟩ := hend
  refine ⟨rs, hrs, hne, ?_⟩
  have h1 := overAll_spec _ _ hps
  have h2 := overAll_spec _ _ hr
  clear hps hr hany h g g'
  induction h1 generalizing r with
  | nil => cases h2; exact List.Forall₂.nil
  | @cons p q points ps hpq _ ih =>
    cases h2 with
    | @cons _ b _ r' hb hrest =>
      refine List.Forall₂.cons ?_ (ih (fun x hx => hne x (List.mem_cons_of_mem _ hx)) r' hrest)
      obtain ⟨tail, ht, hf⟩ := completeFrom_spec p [] q hpq
      simp only [List.nil_append] at ht
      subst ht
      have hlen := hf.length_eq
      have hcomp : ∀ e ∈ q, Complete e := by
        intro e he
        obtain ⟨i, hi, rfl⟩ := List.mem_iff_getElem.mp he
        exact ((List.forall₂_iff_get.mp hf).2 i (by omega) hi).1
      have hkeep : ∀ (i : Nat) (e e' : Exc K), p[i]? = some e → q[i]? = some e' → Keeps e e' := by
        intro i e e' h1 h2
        obtain ⟨a1, rfl⟩ := List.getElem?_eq_some_iff.mp h1
        obtain ⟨a2, rfl⟩ := List.getElem?_eq_some_iff.mp h2
        exact ((List.forall₂_iff_get.mp hf).2 i a1 a2).2
      rcases q with _ | ⟨primary, others⟩
      · have := hne p (by simp)
        have hp0 : p = [] := by
          have : p.length = 0 := by simpa using hlen
          exact List.length_eq_zero_iff.mp this
        exact absurd hp0 this
      · obtain ⟨m1, m2, m3⟩ := missing_windings rs primary others
        by_cases hle : rs.length ≤ others.length
        · rw [m1 hle] at hb
          simp only [Res.ok.injEq] at hb
          subst hb
          refine ⟨hcomp, by simpa using hle, by rw [hlen], Or.inl hlen.symm, hkeep⟩
        · by_cases hne1 : rs.length ≠ 1 ∨ others ≠ []
          · rw [m2 (by omega) hne1] at hb; simp at hb
          · have hl1 : rs.length = 1 := by
              by_contra hx; exact hne1 (Or.inl hx)
            have ho : others = [] := by
              by_contra hx; exact hne1 (Or.inr hx)
            obtain ⟨n, rfl⟩ := List.length_eq_one_iff.mp hl1
            subst ho
            unfold addMissing at hb
            simp only at hb
            rw [if_pos (by simp)] at hb
            obtain ⟨s, hs, hb⟩ := bind_ok hb
            simp only [Res.ok.injEq] at hb
            subst hb
            have hp1 : p.length = 1 := by simpa using hlen
            refine ⟨?_, by simp, by simp [hp1], Or.inr ⟨hp1, rfl, hl1⟩, ?_⟩
            · intro e he
              simp only [List.mem_cons, List.not_mem_nil, or_false] at he
              rcases he with rfl | rfl
              · exact hcomp _ (by simp)
              · exact secondary_complete (hcomp primary (by simp)) hs
            · intro i e e' h1 h2
              have hi : i = 0 := by
                have := (List.getElem?_eq_some_iff.mp h1).1
                omega
              subst hi
              simp only [List.getElem?_cons_zero] at h2
              exact hkeep 0 e e' h1 (by simpa using h2)

theorem complete_same (B : Builders K) (T : Tools K) (ratios : Nat) (inductance : Res K) (done rest : List (Exc K))
    (e : Exc K) (h : Complete e) : complete B T ratios inductance done e rest = .ok e := by
  obtain ⟨⟨c, hc, hs⟩, hv⟩ := h
  unfold complete
  have : standardizeIf B e.frequency e.voltage = .ok e.voltage := by
    cases hev : e.voltage with
    | none => rfl
    | some v => simp only [standardizeIf, standardize_standard B e.frequency v (hv v hev), Res.bind]
  rw [this, hc]
  simp only [Res.bind, standardize_standard B e.frequency c hs, Res.ok.injEq]
  cases e; simp_all

theorem completeFrom_same (B : Builders K) (T : Tools K) (ratios : Nat) (inductance : Res K) :
    ∀ (rest done : List (Exc K)), (∀ e ∈ rest, Complete e) →
      completeFrom B T ratios inductance done rest = .ok (done ++ rest)
  | [], done, _ => by simp [completeFrom]
  | e :: rest, done, h => by
    simp only [completeFrom]
    rw [complete_same B T ratios inductance done rest e (h e (by simp))]
    simp only [Res.bind]
    rw [completeFrom_same B T ratios inductance rest (done ++ [e]) (fun x hx => h x (List.mem_cons_of_mem _ hx))]
    simp

/-- **C247.** Checking again what has passed changes nothing, makes no winding up, and asks for no inductance. -/
theorem checked_again (B : Builders K) (T : Tools K) (ratios : Res (List K)) (inductance inductance' : Res K)
    (points out : List (List (Exc K))) (made : Bool)
    (h : checked B T ratios inductance points = .ok (out, made)) :
    checked B T ratios inductance' out = .ok (out, false) := by
  obtain ⟨rs, hrs, hne, hf⟩ := checked_complete B T ratios inductance points out made h
  have hout : ∀ q ∈ out, (∀ e ∈ q, Complete e) ∧ rs.length + 1 ≤ q.length := by
    intro q hq
    obtain ⟨i, hi, rfl⟩ := List.mem_iff_getElem.mp hq
    have := (List.forall₂_iff_get.mp hf).2 i (by have := hf.length_eq; omega) hi
    exact ⟨this.1, this.2.1⟩
  unfold checked
  rw [if_neg, hrs]
  · simp only [Res.bind]
    rw [overAll_same out (fun q hq => by
      have := completeFrom_same B T rs.length inductance' q [] (hout q hq).1
      simpa using this)]
    simp only
    have : overAll (addMissing rs) out = .ok (out.map fun q => (q, false)) := by
      clear hf h
      induction out with
      | nil => rfl
      | cons q qs ih =>
        simp only [overAll, List.map_cons]
        rw [ih (fun x hx => hout x (List.mem_cons_of_mem _ hx))]
        obtain ⟨-, hl⟩ := hout q (by simp)
        rcases q with _ | ⟨p, os⟩
        · simp at hl
        · rw [(missing_windings rs p os).1 (by simpa using hl)]
          rfl
    rw [this]
    simp only [List.map_map, Res.ok.injEq, Prod.mk.injEq, List.any_map]
    refine ⟨?_, ?_⟩
    · conv_rhs => rw [← List.map_id out]
      rfl
    · simp [Function.comp]
  · intro hany
    obtain ⟨q, hq, he⟩ := List.any_eq_true.mp hany
    have := (hout q hq).2
    simp only [decide_eq_true_eq] at he
    rw [he] at this
    simp at this

/-- **C247.** If it fails the inputs keep the operating points they had. -/
theorem failed_check_keeps (B : Builders K) (T : Tools K) (ratios : Res (List K)) (inductance : Res K)
    (points : List (List (Exc K))) (h : checked B T ratios inductance points = .throws) :
    afterCheck B T ratios inductance points = points := by
  unfold afterCheck; rw [h]

/-- **C247.** An operating point without windings is refused, wherever it is. -/
theorem empty_point_refused (B : Builders K) (T : Tools K) (ratios : Res (List K)) (inductance : Res K)
    (points : List (List (Exc K))) (h : [] ∈ points) : checked B T ratios inductance points = .throws := by
  unfold checked
  rw [if_pos (List.any_eq_true.mpr ⟨[], h, by simp⟩)]

/-- **C247.** A winding with neither voltage nor current is refused. -/
theorem nothing_refused (B : Builders K) (T : Tools K) (ratios : Nat) (inductance : Res K) (done rest : List (Exc K))
    (e : Exc K) (hv : e.voltage = none) (hc : e.current = none) :
    complete B T ratios inductance done e rest = .throws := by
  unfold complete
  simp only [hv, hc, standardizeIf, Res.bind, derive, Option.bind_none]

/-- **C247.** A primary with only a current beside a winding with only a voltage is undefined: the offset is decided on the
voltage of the primary, which is not there. -/
theorem current_beside_voltage_undefined (B : Builders K) (T : Tools K) (ratios : Nat) (inductance : Res K)
    (primary e : Exc K) (rest : List (Exc K)) (v : Signal K) (w s : Waveform K) (hp : primary.voltage = none)
    (hpc : ∃ c, primary.current = some c ∧ Standard c) (hv : e.voltage = some v) (hw : v.waveform = some w)
    (ht : w.time ≠ none) (hc : e.current = none) (hs : Waveforms.sampled w e.frequency none T.setting = .ok s) :
    completeFrom B T ratios inductance [] (primary :: e :: rest) = .ub := by
  have h1 : complete B T ratios inductance [] primary (e :: rest) = .ok primary :=
    complete_same B T ratios inductance [] (e :: rest) primary ⟨hpc, by rw [hp]; simp⟩
  obtain ⟨ts, hts⟩ := Option.ne_none_iff_exists'.mp ht
  have h2 : standardize B e.frequency v = .ok v := standardize_standard B e.frequency v ⟨w, ts, hw, hts⟩
  simp only [completeFrom, h1, Res.bind, List.nil_append]
  have h3 : complete B T ratios inductance [primary] e rest = .ub := by
    unfold complete
    rw [hv]
    simp only [standardizeIf, h2, Res.bind, hc, derive, Option.bind_some, hw, hs]
    simp only [List.cons_append, includeOffset, hp]
  rw [h3]

/-- Builders for the examples: an alternating waveform without times. -/
def builders : Builders ℚ := ⟨fun _ _ => .ok ⟨[1, -1], none, none⟩, fun _ _ => .ok ⟨[1, -1], none, none⟩⟩

/-- A voltage alone of four samples. -/
def voltageOnly : Exc ℚ :=
  { frequency := 1, current := none, magnetizing := none,
    voltage := some ⟨some ⟨[1, 1, -1, -1], some [0, 1 / 4, 1 / 2, 3 / 4], none⟩, none, none⟩ }

/-- A primary with a current of four samples alone. -/
def currentOnly : Exc ℚ :=
  { frequency := 1, voltage := none, magnetizing := none,
    current := some ⟨some ⟨[0, 1, 2, 1], some [0, 1 / 4, 1 / 2, 3 / 4], none⟩, none, none⟩ }

example : checked builders tools (.ok [1 / 2]) .throws [[currentOnly]] =
    .ok ([[currentOnly, ⟨1, none,
      some ⟨some ⟨[0, 1 / 2, 1, 1 / 2], some [0, 1 / 4, 1 / 2, 3 / 4], none⟩, none, none⟩, none⟩]], true) := by
  decide +kernel
example : (match checked builders tools (.ok []) (.ok 2) [[voltageOnly]] with
    | .ok ([[e]], false) => e.current.isSome
    | _ => false) = true := by decide +kernel
example : checked builders tools (.ok [1 / 2]) (.ok 2) [[currentOnly, voltageOnly]] = .ub := by decide +kernel

/-- **C247.** The times given to a waveform without them are as many as its samples, from zero, evenly spaced up to the period. -/
theorem given_times {B : Builders K} {f : K} {s s' : Signal K} {w : Waveform K} (hw : s.waveform = some w) (ht : w.time = none)
    (h : standardize B f s = .ok s') : ∃ (w' : Waveform K) (ts : List K), s'.waveform = some w' ∧ w'.time = some ts ∧
      ts.length = w.data.length ∧ Round.roundFloat f 9 ≠ 0 ∧
      ∀ (i : ℕ) (t : K), ts[i]? = some t → 2 ≤ w.data.length → t * ((w.data.length : K) - 1) * Round.roundFloat f 9 = i := by
  unfold standardize withTimes at h
  rw [hw] at h
  simp only [ht] at h
  split_ifs at h with h0
  simp only [Res.ok.injEq] at h
  subst h
  refine ⟨_, _, rfl, rfl, Sampling.linearSpaced_length _ _ _, h0, fun i t hi hn => ?_⟩
  have hlt : i < w.data.length := by
    obtain ⟨h1, _⟩ := List.getElem?_eq_some_iff.mp hi
    rwa [Sampling.linearSpaced_length] at h1
  rw [Sampling.linearSpaced_get _ _ _ _ hlt, Option.some.injEq] at hi
  subst hi
  have hne : (w.data.length : K) - 1 ≠ 0 := by
    have : (2 : K) ≤ w.data.length := by exact_mod_cast hn
    intro h1; linarith
  unfold Sampling.sample
  field_simp
  ring

end Verif.Excitation
