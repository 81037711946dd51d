import Verif.Filters.Gates
import Mathlib.Algebra.Order.Field.Rat
import Mathlib.Algebra.Order.BigOperators.Group.List
import Mathlib.Algebra.BigOperators.Group.List.Basic
import Mathlib.Tactic.Linarith
import Mathlib.Tactic.NormNum
import Mathlib.Tactic.FieldSimp
import Mathlib.Tactic.Ring

/-!
# C185-C190: the filters that go over the operating points
-/

set_option linter.unusedSectionVars false
set_option linter.unusedSimpArgs false

namespace Verif.Filters.Gates

open Verif.Requirements

variable {K : Type} [Field K] [LinearOrder K] [IsStrictOrderedRing K]

/-! ## Lemmas on the sums -/

theorem bind_some {α β : Type} {o : Outcome α} {f : α → Outcome β} {b : β} :
    o.bind f = .value b ↔ ∃ a : α, o = .value a ∧ f a = .value b := by
  cases o with
  | value a => simp [Outcome.bind]
  | throws => simp [Outcome.bind]
  | undefined => simp [Outcome.bind]

theorem addUp_some {α : Type} (f : α → Outcome (Option K)) : ∀ (l : List α) (acc s : K),
    addUp f l acc = .value (some s) ↔
      ∃ xs : List K, List.Forall₂ (fun a x => f a = .value (some x)) l xs ∧ s = acc + xs.sum
  | [], acc, s => by
    simp only [addUp]
    constructor
    · intro h; refine ⟨[], .nil, ?_⟩; simp at h; simp [h]
    · rintro ⟨xs, h, rfl⟩; cases h; simp
  | a :: l, acc, s => by
    simp only [addUp, bind_some]
    constructor
    · rintro ⟨o, ho, h⟩
      cases o with
      | none => simp at h
      | some x =>
        obtain ⟨xs, hxs, rfl⟩ := (addUp_some f l (acc + x) s).mp h
        exact ⟨x :: xs, .cons ho hxs, by simp [add_assoc]⟩
    · rintro ⟨xs, h, rfl⟩
      cases h with
      | @cons _ x _ xs hx hxs =>
        exact ⟨some x, hx, (addUp_some f l (acc + x) _).mpr ⟨xs, hxs, by simp [add_assoc]⟩⟩

theorem forall₂_of_forall {α β : Type} {R : α → β → Prop} : ∀ {l : List α}, (∀ a ∈ l, ∃ b : β, R a b) → ∃ xs : List β, List.Forall₂ R l xs
  | [], _ => ⟨[], .nil⟩
  | a :: l, h => by
    obtain ⟨b, hb⟩ := h a (by simp)
    obtain ⟨xs, hxs⟩ := forall₂_of_forall (l := l) (fun a' ha' => h a' (List.mem_cons_of_mem _ ha'))
    exact ⟨b :: xs, .cons hb hxs⟩

theorem exists_of_forall₂ {α β : Type} {R : α → β → Prop} : ∀ {l : List α} {xs : List β}, List.Forall₂ R l xs → ∀ a ∈ l, ∃ b ∈ xs, R a b
  | _, _, .nil, a, ha => by cases ha
  | _, _, .cons hb hs, a, ha => by
    rcases List.mem_cons.mp ha with rfl | ha
    · exact ⟨_, by simp, hb⟩
    · obtain ⟨b, hbm, hr⟩ := exists_of_forall₂ hs a ha
      exact ⟨b, List.mem_cons_of_mem _ hbm, hr⟩

theorem sum_le_of_forall₂ {α : Type} {R : α → K → Prop} {c : K} : ∀ {l : List α} {xs : List K}, List.Forall₂ R l xs →
    (∀ a ∈ l, ∀ x : K, R a x → x ≤ c) → xs.sum ≤ l.length * c
  | _, _, .nil, _ => by simp
  | _, _, .cons (a := a) (b := b) hb hs, h => by
    have := sum_le_of_forall₂ hs (fun a' ha' x hx => h a' (List.mem_cons_of_mem _ ha') x hx)
    have h1 := h a (by simp) b hb
    simp only [List.sum_cons, List.length_cons]
    push_cast
    linarith

theorem sum_nonneg_of_forall₂ {α : Type} {R : α → K → Prop} : ∀ {l : List α} {xs : List K}, List.Forall₂ R l xs →
    (∀ a ∈ l, ∀ x : K, R a x → 0 ≤ x) → 0 ≤ xs.sum
  | _, _, .nil, _ => by simp
  | _, _, .cons (a := a) (b := b) hb hs, h => by
    have := sum_nonneg_of_forall₂ hs (fun a' ha' x hx => h a' (List.mem_cons_of_mem _ ha') x hx)
    have h1 := h a (by simp) b hb
    simp only [List.sum_cons]
    linarith

/-! ## C185: saturation -/

/-- The peak of the flux density at an operating point is `b`. For an inductor it is that of its current. For a transformer it is that of its volt
seconds when they are known, otherwise of the peak of the voltage, applied or induced by the current. -/
def FluxIs (inductor : Bool) (turns : K) (p : SatPoint K) (b : K) : Prop :=
  if inductor then p.inductorFlux = .value (some b)
  else match p.voltage with
    | some v => (0 < p.voltSeconds ∧ 0 < turns ∧ p.fromVoltSeconds p.voltSeconds = .value b) ∨
        (¬ (0 < p.voltSeconds ∧ 0 < turns) ∧ p.fromVoltage v = .value b)
    | none => p.waveform = true ∧ ∃ v : K, p.induced = .value v ∧ p.fromVoltage v = .value b

/-- An operating point does not saturate the magnetic: the flux density with its margin is not over that of saturation and, for an inductor, the
current of saturation is not under the peak with its margin. A common mode choke of which the currents are symmetric is exempt. -/
def Safe (inductor tagged : Bool) (margin turns : K) (p : SatPoint K) : Prop :=
  ∃ b : K, FluxIs inductor turns p b ∧
    ((tagged = true ∧ p.symmetric = true) ∨
     (b * margin ≤ p.fluxSaturation ∧
      (inductor = true → ∃ i s : K, p.currentPeak = some i ∧ p.saturationCurrent = .value s ∧ margin * i ≤ s)))

theorem fluxOf_iff (inductor : Bool) (turns : K) (p : SatPoint K) (b : K) :
    fluxOf inductor turns p = .value (some b) ↔ FluxIs inductor turns p b := by
  unfold fluxOf FluxIs
  cases inductor with
  | true => simp
  | false =>
    simp only [if_false, Bool.false_eq_true, bind_some, transformerFlux]
    cases hv : p.voltage with
    | some v =>
      simp only
      by_cases hc : 0 < p.voltSeconds ∧ 0 < turns
      · simp [hc, hc.1, hc.2]
      · simp only [if_neg hc]
        constructor
        · rintro ⟨a, ha, h⟩
          simp at h; subst h
          exact Or.inr ⟨hc, ha⟩
        · rintro (⟨h1, h2, _⟩ | ⟨_, h⟩)
          · exact absurd ⟨h1, h2⟩ hc
          · exact ⟨b, h, rfl⟩
    | none =>
      simp only
      by_cases hw : p.waveform = true
      · simp only [hw, if_true, true_and, bind_some]
        constructor
        · rintro ⟨a, ⟨v, hv1, hv2⟩, h⟩
          simp at h; subst h
          exact ⟨v, hv1, hv2⟩
        · rintro ⟨v, hv1, hv2⟩
          exact ⟨b, ⟨v, hv1, hv2⟩, rfl⟩
      · simp [hw]

/-- What an operating point adds to the score when it does not reject. -/
theorem satPoint_some {inductor tagged : Bool} {margin turns x : K} {p : SatPoint K} (h : satPoint inductor tagged margin turns p = .value (some x)) :
    Safe inductor tagged margin turns p ∧
    ((tagged = true ∧ p.symmetric = true ∧ x = 0) ∨
     ∃ b : K, FluxIs inductor turns p b ∧ b * margin ≤ p.fluxSaturation ∧
      ((inductor = false ∧ x = if 0 < p.fluxSaturation then b / p.fluxSaturation else 1) ∨
       ∃ i s : K, inductor = true ∧ p.currentPeak = some i ∧ p.saturationCurrent = .value s ∧ margin * i ≤ s ∧
        x = (if 0 < p.fluxSaturation then b / p.fluxSaturation else 1) + (if 0 < s then margin * i / s else 1))) := by
  simp only [satPoint, bind_some] at h
  obtain ⟨o, ho, h⟩ := h
  cases o with
  | none => simp at h
  | some b =>
    simp only at h
    have hb := (fluxOf_iff inductor turns p b).mp ho
    by_cases hex : (tagged && p.symmetric) = true
    · rw [if_pos hex] at h
      simp only [Bool.and_eq_true] at hex
      simp at h
      exact ⟨⟨b, hb, Or.inl hex⟩, Or.inl ⟨hex.1, hex.2, h.symm⟩⟩
    · rw [if_neg hex] at h
      by_cases hs : p.fluxSaturation < b * margin
      · rw [if_pos hs] at h; simp at h
      · rw [if_neg hs] at h
        cases inductor with
        | false =>
          simp only [if_true] at h
          simp only [Outcome.value.injEq, Option.some.injEq] at h
          exact ⟨⟨b, hb, Or.inr ⟨not_lt.mp hs, by simp⟩⟩, Or.inr ⟨b, hb, not_lt.mp hs, Or.inl ⟨rfl, h.symm⟩⟩⟩
        | true =>
          simp only [Bool.true_eq_false, if_false] at h
          cases hi : p.currentPeak with
          | none => rw [hi] at h; simp at h
          | some i =>
            rw [hi] at h
            simp only [bind_some] at h
            obtain ⟨s, hs1, h⟩ := h
            by_cases hlt : s < margin * i
            · rw [if_pos hlt] at h; simp at h
            · rw [if_neg hlt] at h
              simp only [Outcome.value.injEq, Option.some.injEq] at h
              exact ⟨⟨b, hb, Or.inr ⟨not_lt.mp hs, fun _ => ⟨i, s, hi, hs1, not_lt.mp hlt⟩⟩⟩,
                Or.inr ⟨b, hb, not_lt.mp hs, Or.inr ⟨i, s, rfl, rfl, hs1, not_lt.mp hlt, h.symm⟩⟩⟩

theorem satPoint_of_safe {inductor tagged : Bool} {margin turns : K} {p : SatPoint K} (h : Safe inductor tagged margin turns p) :
    ∃ x : K, satPoint inductor tagged margin turns p = .value (some x) := by
  obtain ⟨b, hb, h⟩ := h
  have ho := (fluxOf_iff inductor turns p b).mpr hb
  simp only [satPoint, ho, Outcome.bind]
  rcases h with ⟨h1, h2⟩ | ⟨h1, h2⟩
  · exact ⟨0, by simp [h1, h2]⟩
  · by_cases hex : (tagged && p.symmetric) = true
    · exact ⟨0, by rw [if_pos hex]⟩
    · rw [if_neg hex, if_neg (not_lt.mpr h1)]
      cases inductor with
      | false => rw [if_pos rfl]; exact ⟨_, rfl⟩
      | true =>
        obtain ⟨i, s, hi, hs, hle⟩ := h2 rfl
        simp only [Bool.true_eq_false, if_false, hi, hs]
        rw [if_neg (not_lt.mpr hle)]
        exact ⟨_, rfl⟩

/-- C185. The filter by saturation keeps a magnetic exactly when none of its operating points saturates it. In particular a point that cannot be
measured is never taken as a safe one. -/
theorem saturation_kept_iff (inductor tagged : Bool) (margin turns : K) (ps : List (SatPoint K)) :
    (∃ s : Score K, saturation inductor tagged margin turns ps = .value ⟨true, s⟩) ↔ ∀ p ∈ ps, Safe inductor tagged margin turns p := by
  simp only [saturation, close, bind_some]
  constructor
  · rintro ⟨s, o, ho, h⟩
    cases o with
    | none => simp [rejected] at h
    | some x =>
      obtain ⟨xs, hxs, _⟩ := (addUp_some _ _ _ _).mp ho
      intro p hp
      obtain ⟨y, _, hy⟩ := exists_of_forall₂ hxs p hp
      exact (satPoint_some hy).1
  · intro h
    obtain ⟨xs, hxs⟩ := forall₂_of_forall (fun p hp => satPoint_of_safe (h p hp))
    exact ⟨_, some (0 + xs.sum), (addUp_some _ _ _ _).mpr ⟨xs, hxs, rfl⟩, rfl⟩

/-- C185. A transformer with an operating point without voltage and without waveform of current is not kept. -/
theorem no_excitation_not_kept (tagged : Bool) (margin turns : K) (ps : List (SatPoint K)) (p : SatPoint K) (hp : p ∈ ps)
    (hv : p.voltage = none) (hw : p.waveform = false) (s : Score K) : saturation false tagged margin turns ps ≠ .value ⟨true, s⟩ := by
  intro h
  obtain ⟨b, hb, _⟩ := (saturation_kept_iff false tagged margin turns ps).mp ⟨s, h⟩ p hp
  unfold FluxIs at hb
  simp [hv, hw] at hb

/-- C185. Whether it is kept does not depend on the order of the operating points. -/
theorem saturation_any_order (inductor tagged : Bool) (margin turns : K) (ps qs : List (SatPoint K)) (h : ps.Perm qs) :
    (∃ s : Score K, saturation inductor tagged margin turns ps = .value ⟨true, s⟩) ↔
    (∃ s : Score K, saturation inductor tagged margin turns qs = .value ⟨true, s⟩) := by
  rw [saturation_kept_iff, saturation_kept_iff]
  exact ⟨fun hp q hq => hp q (h.mem_iff.mpr hq), fun hq p hp => hq p (h.mem_iff.mp hp)⟩

/-- C185. The score of a magnetic that is kept is a share of what it could bear: never over the inverse of the margin for a transformer, and never
over that plus one for an inductor. -/
theorem saturation_score_bounded (inductor tagged : Bool) (margin turns : K) (hm : 0 < margin) (ps : List (SatPoint K)) (hne : ps ≠ [])
    (hb : ∀ p ∈ ps, 0 < p.fluxSaturation) (hs : ∀ p ∈ ps, ∀ s : K, p.saturationCurrent = .value s → 0 < s)
    {sc : Score K} (h : saturation inductor tagged margin turns ps = .value ⟨true, sc⟩) :
    ∃ x : K, sc = .num x ∧ x ≤ (if inductor then 1 / margin + 1 else 1 / margin) := by
  simp only [saturation, close, bind_some] at h
  obtain ⟨o, ho, h⟩ := h
  cases o with
  | none => simp [rejected] at h
  | some x =>
    simp only [Outcome.value.injEq, Answer.mk.injEq, true_and] at h
    obtain ⟨xs, hxs, hx⟩ := (addUp_some _ _ _ _).mp ho
    have hlen : ps.length ≠ 0 := by simpa using hne
    have hpos : (0 : K) < ps.length := by exact_mod_cast Nat.pos_of_ne_zero hlen
    refine ⟨x / ps.length, ?_, ?_⟩
    · rw [← h, mean, if_neg hlen]
    · rw [div_le_iff₀ hpos, hx, zero_add, mul_comm]
      refine sum_le_of_forall₂ hxs ?_
      intro p hp y hy
      have hm1 : 0 < 1 / margin := by positivity
      have hbound : ∀ b : K, b * margin ≤ p.fluxSaturation → b / p.fluxSaturation ≤ 1 / margin := by
        intro b hb'
        rw [div_le_div_iff₀ (hb p hp) hm]
        linarith
      rcases (satPoint_some hy).2 with ⟨_, _, rfl⟩ | ⟨b, _, hle, hc⟩
      · split_ifs <;> linarith
      · rw [if_pos (hb p hp)] at hc
        rcases hc with ⟨hi, rfl⟩ | ⟨i, s, hi, _, hs1, hle2, rfl⟩
        · rw [hi]; simpa using hbound b hle
        · rw [hi, if_pos rfl, if_pos (hs p hp s hs1)]
          have : margin * i / s ≤ 1 := by rw [div_le_one (hs p hp s hs1)]; exact hle2
          linarith [hbound b hle]

/-- An inductor at 0.2 T of 0.4 T, with 3 A of 4 A. -/
def somePoint : SatPoint ℚ where
  voltage := none
  waveform := true
  induced := .value 10
  voltSeconds := 0
  fromVoltSeconds := fun x => .value x
  fromVoltage := fun x => .value x
  inductorFlux := .value (some (1 / 5))
  fluxSaturation := 2 / 5
  symmetric := false
  currentPeak := some 3
  saturationCurrent := .value 4

/-- The hypotheses are met, and the gate of the current is the one that decides: 3 A with a margin of 1.2 is under 4 A, 3.5 A is not. -/
example : saturation true false (6 / 5) 10 [somePoint] = .value ⟨true, .num (1 / 2 + 9 / 10)⟩ ∧
    saturation true false (6 / 5) 10 [somePoint, { somePoint with currentPeak := some (7 / 2) }] = .value rejected := by
  constructor <;> decide +kernel

/-- C185. Without operating points a magnetic is kept, and its score is not a number. -/
theorem saturation_no_points (inductor tagged : Bool) (margin turns : K) : saturation inductor tagged margin turns [] = .value ⟨true, .nan⟩ := by
  simp [saturation, close, addUp, Outcome.bind, mean]

/-! ## C186: current densities -/

theorem densityOf_some {limit x : K} {e : Excited K} :
    densityOf limit e = .value (some x) ↔ ∃ d : K, e.density = some d ∧ d / e.parallels ≤ limit ∧ x = d / e.parallels / limit := by
  unfold densityOf
  cases e.density with
  | none => simp
  | some d =>
    simp only
    by_cases h : limit < d / e.parallels
    · simp [h, not_le.mpr h]
    · rw [if_neg h]
      constructor
      · intro hx; simp at hx; exact ⟨d, rfl, not_lt.mp h, hx.symm⟩
      · rintro ⟨d', hd, _, rfl⟩
        simp at hd; subst hd; rfl

theorem densityPoint_some {limit acc s : K} {n : ℕ} {es : List (Excited K)} :
    densityPoint limit n es acc = .value (some s) ↔ n ≤ es.length ∧
      ∃ xs : List K, List.Forall₂ (fun a x => densityOf limit a = .value (some x)) (es.take n) xs ∧ s = acc + xs.sum := by
  simp only [densityPoint, bind_some]
  constructor
  · rintro ⟨o, ho, h⟩
    cases o with
    | none => simp at h
    | some y =>
      simp only at h
      by_cases hl : es.length < n
      · rw [if_pos hl] at h; simp at h
      · rw [if_neg hl] at h
        simp at h; subst h
        obtain ⟨xs, h1, h2⟩ := (addUp_some _ _ _ _).mp ho
        exact ⟨by omega, xs, h1, h2⟩
  · rintro ⟨hl, xs, h1, h2⟩
    refine ⟨some s, (addUp_some _ _ _ _).mpr ⟨xs, h1, h2⟩, ?_⟩
    simp only
    rw [if_neg (by omega)]

theorem densityPoints_some {limit : K} {n : ℕ} : ∀ (ops : List (List (Excited K))) (acc s : K),
    densityPoints limit n ops acc = .value (some s) →
    (∀ es ∈ ops, n ≤ es.length ∧ ∀ e ∈ es.take n, ∃ d : K, e.density = some d ∧ d / e.parallels ≤ limit) ∧
    (0 < limit → s ≤ acc + ops.length * n)
  | [], acc, s, h => by simp [densityPoints] at h; simp [h]
  | es :: ops, acc, s, h => by
    simp only [densityPoints, bind_some] at h
    obtain ⟨o, ho, h⟩ := h
    cases o with
    | none => simp at h
    | some y =>
      obtain ⟨hl, xs, hxs, rfl⟩ := densityPoint_some.mp ho
      obtain ⟨h1, h2⟩ := densityPoints_some ops _ s h
      refine ⟨?_, ?_⟩
      · intro es' hes
        rcases List.mem_cons.mp hes with rfl | hes
        · refine ⟨hl, fun e he => ?_⟩
          obtain ⟨x, _, hx⟩ := exists_of_forall₂ hxs e he
          obtain ⟨d, hd, hle, _⟩ := densityOf_some.mp hx
          exact ⟨d, hd, hle⟩
        · exact h1 es' hes
      · intro hlim
        have h3 := h2 hlim
        have h4 : xs.sum ≤ (es.take n).length * (1 : K) := by
          refine sum_le_of_forall₂ hxs ?_
          intro e _ x hx
          obtain ⟨d, _, hle, rfl⟩ := densityOf_some.mp hx
          rw [div_le_one hlim]; exact hle
        have h5 : (es.take n).length = n := by simp [hl]
        rw [h5] at h4
        simp only [List.length_cons]
        push_cast
        linarith

theorem densityPoints_of {limit : K} {n : ℕ} : ∀ (ops : List (List (Excited K))) (acc : K),
    (∀ es ∈ ops, n ≤ es.length ∧ ∀ e ∈ es.take n, ∃ d : K, e.density = some d ∧ d / e.parallels ≤ limit) →
    ∃ s : K, densityPoints limit n ops acc = .value (some s)
  | [], acc, _ => ⟨acc, rfl⟩
  | es :: ops, acc, h => by
    obtain ⟨hl, he⟩ := h es (by simp)
    obtain ⟨xs, hxs⟩ := forall₂_of_forall (R := fun a x => densityOf limit a = .value (some x)) (l := es.take n) (by
      intro e hem
      obtain ⟨d, hd, hle⟩ := he e hem
      exact ⟨_, densityOf_some.mpr ⟨d, hd, hle, rfl⟩⟩)
    obtain ⟨s, hs⟩ := densityPoints_of ops (acc + xs.sum) (fun es' hes => h es' (List.mem_cons_of_mem _ hes))
    refine ⟨s, ?_⟩
    rw [densityPoints, densityPoint_some.mpr ⟨hl, xs, hxs, rfl⟩]
    exact hs

/-- C186. The filters by current density keep a magnetic exactly when, at every operating point, every winding has a current and the density of
the current in each of its parallels is not over the limit. -/
theorem density_kept_iff (limit : K) (windings : ℕ) (first : List (Excited K)) (ops : List (List (Excited K)))
    (hw : ∀ es ∈ first :: ops, es.length = windings) :
    (∃ s : Score K, density limit windings (first :: ops) = .value ⟨true, s⟩) ↔
    ∀ es ∈ first :: ops, ∀ e ∈ es, ∃ d : K, e.density = some d ∧ d / e.parallels ≤ limit := by
  have htake : ∀ es ∈ first :: ops, es.take windings = es := by
    intro es hes; rw [List.take_of_length_le (le_of_eq (hw es hes))]
  simp only [density]
  rw [if_pos (hw first (by simp)).symm]
  simp only [close, bind_some]
  constructor
  · rintro ⟨s, o, ho, h⟩ es hes e he
    cases o with
    | none => simp [rejected] at h
    | some x => exact ((densityPoints_some _ _ _ ho).1 es hes).2 e (by rw [htake es hes]; exact he)
  · intro h
    obtain ⟨s, hs⟩ := densityPoints_of (limit := limit) (n := windings) (first :: ops) 0 (by
      intro es hes
      exact ⟨le_of_eq (hw es hes).symm, by rw [htake es hes]; exact h es hes⟩)
    exact ⟨_, some s, hs, rfl⟩

/-- C186. The score of a magnetic that is kept is not over its number of windings. -/
theorem density_score_bounded (limit : K) (hl : 0 < limit) (windings : ℕ) (ops : List (List (Excited K))) (hne : ops ≠ [])
    {sc : Score K} (h : density limit windings ops = .value ⟨true, sc⟩) : ∃ x : K, sc = .num x ∧ x ≤ windings := by
  cases ops with
  | nil => exact absurd rfl hne
  | cons first ops =>
    simp only [density] at h
    split_ifs at h with hw
    · simp only [close, bind_some] at h
      obtain ⟨o, ho, h⟩ := h
      cases o with
      | none => simp [rejected] at h
      | some x =>
        simp only [Outcome.value.injEq, Answer.mk.injEq, true_and] at h
        have h2 := (densityPoints_some _ _ _ ho).2 hl
        have hpos : (0 : K) < ((first :: ops).length : ℕ) := by exact_mod_cast Nat.succ_pos _
        refine ⟨x / ((first :: ops).length : ℕ), ?_, ?_⟩
        · rw [← h, mean, if_neg (by simp)]
        · rw [div_le_iff₀ hpos]; linarith [mul_comm (((first :: ops).length : ℕ) : K) (windings : K)]
    · simp [rejected] at h

/-- C186, the claim is false of the code: only the first operating point is asked for its number of windings, so a later one with fewer is read outside
its vector. -/
theorem density_later_point_counterexample :
    density (7 : ℚ) 2 [[⟨some 1, 1⟩, ⟨some 1, 1⟩], [⟨some 1, 1⟩]] = .undefined := by decide +kernel

/-- The hypotheses are met: two windings, one with two parallels, at two operating points. -/
example : density (7 : ℚ) 2 [[⟨some 1, 1⟩, ⟨some 8, 2⟩], [⟨some 3, 1⟩, ⟨some 2, 2⟩]] = .value ⟨true, .num (9 / 14)⟩ := by decide +kernel

/-! ## C187: inductor or transformer, and the inductance -/

/-- C187. The filter by inductance and the filter by saturation take the same designs as transformers. -/
theorem transformer_agrees (d : Design K) : isTransformer d = !isInductor d := by
  unfold isTransformer isInductor
  split_ifs
  · rfl
  · cases d.topology <;> simp

/-- C187. All the windings on one side is what makes an inductor of any topology. -/
theorem single_side_iff (ss : List ℕ) : singleSide (some ss) = true ↔ 2 ≤ ss.length ∧ ∀ a ∈ ss, ∀ b ∈ ss, a = b := by
  match ss with
  | [] => simp [singleSide]
  | [a] => simp [singleSide]
  | a :: b :: rest =>
    simp only [singleSide, List.all_eq_true, beq_iff_eq, List.length_cons]
    constructor
    · intro h
      refine ⟨by omega, fun x hx y hy => ?_⟩
      have hx' : x = a := by
        rcases List.mem_cons.mp hx with rfl | hx
        · rfl
        · exact h x hx
      have hy' : y = a := by
        rcases List.mem_cons.mp hy with rfl | hy
        · rfl
        · exact h y hy
      rw [hx', hy']
    · rintro ⟨_, h⟩ x hx
      exact h x (List.mem_cons_of_mem _ hx) a (by simp)

/-- The inductance the filter must find at an operating point. -/
def inductanceAt (d : Design K) (p : LPoint K) : Option (K × Option K) := if isInductor d then p.excited else p.atRest

theorem inductanceLoop_some {th : K} {r : Dim K} {tr : Bool} : ∀ (ps : List (LPoint K)) (index : ℕ) (valid : Bool) (acc : K) (outs : List (Out K))
    (v : Bool) (s : K) (o : List (Out K)), inductanceLoop th r tr index ps valid acc outs = (.value (some (v, s)), o) →
    (v = true ↔ valid = true ∧ ∀ p ∈ ps, ∃ l e, (if tr then p.atRest else p.excited) = some (l, e) ∧ check th r l = some true)
  | [], index, valid, acc, outs, v, s, o, h => by
    simp only [inductanceLoop, Prod.mk.injEq, Outcome.value.injEq, Option.some.injEq] at h
    obtain ⟨⟨rfl, rfl⟩, rfl⟩ := h
    simp
  | p :: ps, index, valid, acc, outs, v, s, o, h => by
    simp only [inductanceLoop] at h
    cases hl : (if tr then p.atRest else p.excited) with
    | none => rw [hl] at h; simp at h
    | some le =>
      obtain ⟨l, e⟩ := le
      rw [hl] at h
      simp only at h
      cases hr : resolve r .nominal with
      | none => rw [hr] at h; simp at h
      | some q =>
        rw [hr] at h
        simp only at h
        cases hc : check th r l with
        | none => rw [hc] at h; simp at h
        | some ok =>
          rw [hc] at h
          cases ok with
          | true =>
            simp only at h
            rw [inductanceLoop_some ps _ _ _ _ v s o h]
            constructor
            · rintro ⟨h1, h2⟩
              refine ⟨h1, fun p' hp' => ?_⟩
              rcases List.mem_cons.mp hp' with rfl | hp'
              · exact ⟨l, e, hl, hc⟩
              · exact h2 p' hp'
            · rintro ⟨h1, h2⟩
              exact ⟨h1, fun p' hp' => h2 p' (List.mem_cons_of_mem _ hp')⟩
          | false =>
            simp only at h
            rw [inductanceLoop_some ps _ _ _ _ v s o h]
            constructor
            · rintro ⟨h1, _⟩; simp at h1
            · rintro ⟨_, h2⟩
              obtain ⟨l', e', h3, h4⟩ := h2 p (by simp)
              rw [hl] at h3
              simp only [Option.some.injEq, Prod.mk.injEq] at h3
              obtain ⟨rfl, rfl⟩ := h3
              rw [hc] at h4; simp at h4

/-- C187. Outside interference suppression, a magnetic kept by the filter by inductance meets the requirement at every operating point: at rest if it is
a transformer, with the excitation if it is an inductor. A requirement of zero or none asks for nothing. -/
theorem inductance_kept_meets (th : K) (d : Design K) (ps : List (LPoint K)) (outs : List (Out K)) {s : Score K} {o : List (Out K)}
    (hreq : d.inductance.minimum ≠ none ∨ d.inductance.maximum ≠ none ∨ ∃ n : K, d.inductance.nominal = some n ∧ 0 < n)
    (h : magnetizingInductance th d false ps outs = (.value ⟨true, s⟩, o)) :
    ∀ p ∈ ps, ∃ l e, inductanceAt d p = some (l, e) ∧ check th d.inductance l = some true := by
  unfold magnetizingInductance at h
  simp only at h
  rw [if_neg (by
      rcases hreq with h1 | h1 | ⟨n, h1, _⟩
      · simp [Option.isNone_iff_eq_none, h1]
      · simp [Option.isNone_iff_eq_none, h1]
      · simp [h1])] at h
  rw [if_neg (by
      rcases hreq with h1 | h1 | ⟨n, h1, hn⟩
      · simp [Option.isNone_iff_eq_none, h1]
      · simp [Option.isNone_iff_eq_none, h1]
      · simp [h1, hn])] at h
  rw [if_neg (by simp)] at h
  cases hl : inductanceLoop th d.inductance (isTransformer d) 0 ps true 0 outs with
  | mk r o' =>
    rw [hl] at h
    cases r with
    | throws => simp at h
    | undefined => simp at h
    | value v =>
      cases v with
      | none => simp [rejected] at h
      | some vs =>
        obtain ⟨v, x⟩ := vs
        simp only [Prod.mk.injEq, Outcome.value.injEq, Answer.mk.injEq] at h
        obtain ⟨⟨rfl, _⟩, _⟩ := h
        have := ((inductanceLoop_some ps _ _ _ _ _ _ _ hl).mp rfl).2
        intro p hp
        obtain ⟨l, e, h1, h2⟩ := this p hp
        refine ⟨l, e, ?_, h2⟩
        unfold inductanceAt
        rw [transformer_agrees] at h1
        cases hi : isInductor d with
        | true => rw [hi] at h1; simpa using h1
        | false => rw [hi] at h1; simpa using h1

/-- C187. In interference suppression the inductance is never looked at. -/
theorem suppression_kept (th : K) (d : Design K) (ps : List (LPoint K)) (outs : List (Out K)) :
    magnetizingInductance th d true ps outs = (.value ⟨true, .num 0⟩, outs) := by
  unfold magnetizingInductance
  simp only
  split_ifs <;> rfl

/-- A buck inductor of 10 µH (in µH) at two operating points. -/
example : magnetizingInductance (1 / 4 : ℚ) ⟨none, some true, ⟨some 10, none, none⟩⟩ false [⟨none, some (9, none)⟩, ⟨none, some (12, none)⟩] [] =
    (.value ⟨true, .num (3 / 2)⟩, [⟨some 9, none, none⟩, ⟨some 12, none, none⟩]) := by decide +kernel

/-! ## C188: energy -/

theorem energyLoop_valid {th req : K} : ∀ (es : List K) (index : ℕ) (total : K) (outs : List (Out K)), req * th ≤ total →
    (energyLoop th req index es total outs).1 = (true, es.foldl max total)
  | [], _, _, _, _ => rfl
  | e :: es, index, total, outs, h => by
    rw [energyLoop, if_pos (le_trans h (le_max_left _ _))]
    exact energyLoop_valid es _ _ _ (le_trans h (le_max_left _ _))

/-- C188. The filter by energy keeps a magnetic exactly when the energy of its *first* operating point is enough, whatever the others are. -/
theorem energy_kept_iff (th req e : K) (es : List K) (outs : List (Out K)) :
    (energyStored th req (e :: es) outs).1.valid = true ↔ req * th ≤ max 0 e := by
  unfold energyStored
  simp only [energyLoop]
  by_cases h : req * th ≤ max 0 e
  · rw [if_pos h]; simp [energyLoop_valid es _ _ _ h, h]
  · rw [if_neg h]; simp [h]

/-- C188. What does hold: if every operating point can store the energy, the magnetic is kept and its score is the largest of them. -/
theorem enough_energy_kept_partial (th req : K) (es : List K) (outs : List (Out K)) (h : ∀ e ∈ es, req * th ≤ e) :
    (energyStored th req es outs).1 = ⟨true, .num (es.foldl max 0)⟩ := by
  unfold energyStored
  cases es with
  | nil => rfl
  | cons e es =>
    have he := h e (by simp)
    simp only [energyLoop]
    rw [if_pos (le_trans he (le_max_right _ _)), energyLoop_valid es _ _ _ (le_trans he (le_max_right _ _))]
    rfl

/-- C188, the claim is false of the code: the second operating point cannot store what is required and the magnetic is kept; in the other order it is
not. -/
theorem energy_order_counterexample :
    (energyStored (9 / 10 : ℚ) 10 [12, 1] []).1 = ⟨true, .num 12⟩ ∧ (energyStored (9 / 10 : ℚ) 10 [1, 12] []).1 = ⟨false, .num 1⟩ := by
  constructor <;> decide +kernel

/-- C188, the claim is false of the code: the inductance another filter wrote in the outputs is lost when this one writes the energy. -/
theorem energy_loses_inductance_counterexample :
    (energyStored (9 / 10 : ℚ) 10 [12] [⟨some 5, none, some 1⟩]).2 = [⟨none, some 12, some 1⟩] := by decide +kernel

/-! ## C189: impedance -/

theorem impedanceLoop_fst (log : K → K) : ∀ (zs : List (K × K)) (v : Bool) (acc : K),
    ((impedanceLoop log zs v acc).1 = true ↔ v = true ∧ ∀ z ∈ zs, z.1 ≤ z.2)
  | [], v, acc => by simp [impedanceLoop]
  | (zReq, zAct) :: zs, v, acc => by
    rw [impedanceLoop, impedanceLoop_fst]
    by_cases h : zAct < zReq
    · simp [h]
    · simp [h, not_lt.mp h]

theorem impedanceLoop_snd (log : K → K) (hlog : ∀ x : K, 1 ≤ x → 0 ≤ log x) : ∀ (zs : List (K × K)) (v : Bool) (acc : K),
    acc ≤ (impedanceLoop log zs v acc).2
  | [], v, acc => le_refl _
  | (zReq, zAct) :: zs, v, acc => by
    rw [impedanceLoop]
    refine le_trans ?_ (impedanceLoop_snd log hlog zs _ _)
    have : 0 ≤ log (if 0 < zReq then max (zAct / zReq) 1 else 1) := by
      apply hlog
      split_ifs
      · exact le_max_right _ _
      · exact le_refl _
    linarith

/-- C189. The filter by impedance keeps a magnetic exactly when it has at least the impedance required at every frequency. -/
theorem impedance_kept_iff (log : K → K) (zs : List (K × K)) :
    (impedance log (some zs)).valid = true ↔ ∀ z ∈ zs, z.1 ≤ z.2 := by
  unfold impedance
  simp [impedanceLoop_fst]

/-- C189. The score is never negative, so that no magnetic is better than one exactly at its requirements, and one exactly there scores zero. -/
theorem impedance_score_nonneg (log : K → K) (hlog : ∀ x : K, 1 ≤ x → 0 ≤ log x) (zs : List (K × K)) (hne : zs ≠ []) :
    ∃ x : K, (impedance log (some zs)).score = .num x ∧ 0 ≤ x := by
  have hlen : zs.length ≠ 0 := by simpa using hne
  refine ⟨(impedanceLoop log zs true 0).2 / zs.length, ?_, ?_⟩
  · simp only [impedance, mean, if_neg hlen]
  · exact div_nonneg (impedanceLoop_snd log hlog zs true 0) (by positivity)

theorem impedanceLoop_exact (log : K → K) (h1 : log 1 = 0) : ∀ (zs : List (K × K)) (v : Bool) (acc : K), (∀ z ∈ zs, z.2 ≤ z.1) →
    (impedanceLoop log zs v acc).2 = acc
  | [], _, _, _ => rfl
  | (zReq, zAct) :: zs, v, acc, h => by
    rw [impedanceLoop, impedanceLoop_exact log h1 zs _ _ (fun z hz => h z (List.mem_cons_of_mem _ hz))]
    have hle : zAct ≤ zReq := h (zReq, zAct) (by simp)
    have : (if 0 < zReq then max (zAct / zReq) 1 else 1) = 1 := by
      split_ifs with h0
      · exact max_eq_right ((div_le_one h0).mpr hle)
      · rfl
    rw [this, h1, add_zero]

/-- C189. At or under its requirements everywhere it scores zero: what is under is told by not being kept, not by the score. -/
theorem impedance_score_zero (log : K → K) (h1 : log 1 = 0) (zs : List (K × K)) (hne : zs ≠ []) (h : ∀ z ∈ zs, z.2 ≤ z.1) :
    (impedance log (some zs)).score = .num 0 := by
  have hlen : zs.length ≠ 0 := by simpa using hne
  simp only [impedance, mean, if_neg hlen, impedanceLoop_exact log h1 zs true 0 h, zero_div]

/-- C189. More impedance never scores less, with a logarithm that grows. -/
theorem impedance_score_monotone (log : K → K) (hlog : ∀ x y : K, 1 ≤ x → x ≤ y → log x ≤ log y) : ∀ (zs : List (K × K)) (ws : List (K × K)),
    List.Forall₂ (fun z w => z.1 = w.1 ∧ z.2 ≤ w.2) zs ws → ∀ (v v' : Bool) (a b : K), a ≤ b →
    (impedanceLoop log zs v a).2 ≤ (impedanceLoop log ws v' b).2
  | _, _, .nil, v, v', a, b, hab => hab
  | _, _, .cons (a := z) (b := w) hzw hs, v, v', a, b, hab => by
    obtain ⟨zr, za⟩ := z
    obtain ⟨wr, wa⟩ := w
    obtain ⟨h1, h2⟩ := hzw
    simp only at h1 h2
    subst h1
    rw [impedanceLoop, impedanceLoop]
    refine impedance_score_monotone log hlog _ _ hs _ _ _ _ ?_
    have : log (if 0 < zr then max (za / zr) 1 else 1) ≤ log (if 0 < zr then max (wa / zr) 1 else 1) := by
      split_ifs with h0
      · exact hlog _ _ (le_max_right _ _) (max_le_max (by gcongr) (le_refl _))
      · exact le_refl _
    linarith

/-- C189, the claim is false of the code: an empty list of requirements is kept with a score that is not a number, where no list at all scores zero. -/
theorem impedance_empty_counterexample (log : K → K) :
    impedance log (some []) = ⟨true, .nan⟩ ∧ impedance log none = ⟨true, .num 0⟩ := ⟨rfl, rfl⟩

/-- Two frequencies, one exactly met. -/
example : impedance (fun x : ℚ => x - 1) (some [(100, 100), (100, 150)]) = ⟨true, .num (1 / 4)⟩ := by decide +kernel

/-! ## C190: turns ratios -/

theorem ratioOf_some {th x : K} {r : Dim K} {v : K} (h : ratioOf th (r, v) = .value (some x)) :
    check th r v = some true ∧ ∃ q : K, resolve r .nominal = some q ∧ x = abs (q - v) := by
  unfold ratioOf at h
  simp only at h
  cases hc : check th r v with
  | none => rw [hc] at h; simp at h
  | some ok =>
    rw [hc] at h
    cases ok with
    | false => simp at h
    | true =>
      simp only at h
      cases hr : resolve r .nominal with
      | none => rw [hr] at h; simp at h
      | some q =>
        rw [hr] at h
        simp at h
        exact ⟨rfl, q, rfl, h.symm⟩

/-- C190. A magnetic kept by the filter by turns ratios has as many as are required and each meets the requirement at its place. -/
theorem ratios_kept_meet (th : K) (required : List (Dim K)) (ratios : List K) (hne : required ≠ []) {s : Score K}
    (h : turnsRatios th required ratios = .value ⟨true, s⟩) :
    ratios.length = required.length ∧ ∀ rv ∈ required.zip ratios, check th rv.1 rv.2 = some true := by
  unfold turnsRatios at h
  rw [if_neg hne] at h
  split_ifs at h with hl
  · refine ⟨hl, ?_⟩
    rw [bind_some] at h
    obtain ⟨o, ho, h⟩ := h
    cases o with
    | none => simp [rejected] at h
    | some x =>
      obtain ⟨xs, hxs, _⟩ := (addUp_some _ _ _ _).mp ho
      intro rv hrv
      obtain ⟨y, _, hy⟩ := exists_of_forall₂ hxs rv hrv
      exact (ratioOf_some (r := rv.1) (v := rv.2) hy).1
  · simp [rejected] at h

/-- C190. The score is the sum of the distances to what is required: zero only when each ratio is exactly it. -/
theorem ratios_score (th : K) (required : List (Dim K)) (ratios : List K) (hne : required ≠ []) {s : Score K}
    (h : turnsRatios th required ratios = .value ⟨true, s⟩) :
    ∃ x : K, s = .num x ∧ 0 ≤ x ∧ (x = 0 → ∀ rv ∈ required.zip ratios, resolve rv.1 .nominal = some rv.2) := by
  unfold turnsRatios at h
  rw [if_neg hne] at h
  split_ifs at h with hl
  · rw [bind_some] at h
    obtain ⟨o, ho, h⟩ := h
    cases o with
    | none => simp [rejected] at h
    | some x =>
      simp at h
      obtain ⟨xs, hxs, hx⟩ := (addUp_some _ _ _ _).mp ho
      rw [zero_add] at hx
      have hnn : ∀ y ∈ xs, 0 ≤ y := by
        have : ∀ (l : List (Dim K × K)) (ys : List K), List.Forall₂ (fun a x => ratioOf th a = .value (some x)) l ys → ∀ y ∈ ys, 0 ≤ y := by
          intro l ys hf
          induction hf with
          | nil => simp
          | cons hab _ ih =>
            intro y hy
            rcases List.mem_cons.mp hy with rfl | hy
            · obtain ⟨_, q, _, rfl⟩ := ratioOf_some hab
              exact abs_nonneg _
            · exact ih y hy
        exact this _ _ hxs
      refine ⟨x, h.symm, hx ▸ List.sum_nonneg hnn, ?_⟩
      intro h0 rv hrv
      obtain ⟨y, hy, hyr⟩ := exists_of_forall₂ hxs rv hrv
      obtain ⟨_, q, hq, rfl⟩ := ratioOf_some (r := rv.1) (v := rv.2) hyr
      have : abs (q - rv.2) = 0 := by
        have hle := List.single_le_sum hnn _ hy
        rw [← hx, h0] at hle
        exact le_antisymm hle (abs_nonneg _)
      have := sub_eq_zero.mp (abs_eq_zero.mp this)
      rw [hq, this]
  · simp [rejected] at h

/-- C190. Nothing required, nothing asked: any magnetic is kept. -/
theorem no_ratios_kept (th : K) (ratios : List K) : turnsRatios th ([] : List (Dim K)) ratios = .value ⟨true, .num 0⟩ := by
  simp [turnsRatios]

/-- Two ratios, the second half a unit away. -/
example : turnsRatios (1 / 4 : ℚ) [⟨some 2, none, none⟩, ⟨some 4, none, none⟩] [2, 9 / 2] = .value ⟨true, .num (1 / 2)⟩ := by decide +kernel

end Verif.Filters.Gates
