import Verif.Excitation.Process
import Verif.Excitation.IntegrityProps

/-! # The processing of operating points: specification and theorems -/

namespace Verif.Excitation

open Verif.Waveforms (Waveform Label Res)

set_option linter.unusedSectionVars false
set_option linter.unusedSimpArgs false

variable {K : Type} [Field K] [LinearOrder K] [IsStrictOrderedRing K] [FloorRing K]

/-! ## Specification -/

/-- A winding has a voltage to work with: its own or, as the second of two with turns ratios at hand, that of the
first. -/
def HasVoltage (windings : List (Exc K)) (ratios : Option (List K)) (i : Nat) (e : Exc K) : Prop :=
  e.voltage ≠ none ∨ (i = 1 ∧ ratios ≠ none ∧ ∃ first second, windings = [first, second] ∧ first.voltage ≠ none)

/-- The waveform a magnetizing current is worked out of: that of the voltage if it is sampled, and else sampled. -/
def SampledVoltage (setting : Nat) (e : Exc K) (s : Waveform K) : Prop :=
  ∃ v w, e.voltage = some v ∧ v.waveform = some w ∧
    ((Waveforms.isSampled w setting = true ∧ s = w) ∨
      (Waveforms.isSampled w setting = false ∧ Waveforms.sampled w e.frequency none setting = .ok s))

/-! ## Lemmas -/

theorem sampledUnless_spec {T : Tools K} {f : K} {w s : Waveform K} (h : sampledUnless T f w = .ok s) :
    (Waveforms.isSampled w T.setting = true ∧ s = w) ∨
      (Waveforms.isSampled w T.setting = false ∧ Waveforms.sampled w f none T.setting = .ok s) := by
  unfold sampledUnless at h
  cases hb : Waveforms.isSampled w T.setting with
  | true => rw [hb] at h; simp only [if_true, Res.ok.injEq] at h; exact Or.inl ⟨rfl, h.symm⟩
  | false => rw [hb] at h; simp only [Bool.false_eq_true, if_false] at h; exact Or.inr ⟨rfl, h⟩

theorem analyse_spec {T : Tools K} {f : K} {s : Signal K} {p : Option (Processed K)} {r : Signal K × Waveform K}
    (h : analyse T f s p = .ok r) :
    ∃ w, r.1.waveform = some w ∧ sampledUnless T f w = .ok r.2 ∧ r.1.processed ≠ none ∧ r.1.harmonics ≠ none := by
  unfold analyse at h
  cases hw : s.waveform with
  | none => rw [hw] at h; simp at h
  | some w =>
    rw [hw] at h
    simp only at h
    obtain ⟨sw, h1, h2⟩ := bind_ok h
    obtain ⟨hs, -, h4⟩ := bind_ok h2
    obtain ⟨q, -, h6⟩ := bind_ok h4
    simp only [Res.ok.injEq] at h6
    subst h6
    exact ⟨w, rfl, h1, by simp, by simp⟩

theorem given_spec {P : Processors K} {f : K} {keep : Bool} {s : Signal K} {r : Signal K × Waveform K}
    (h : given P f keep s = .ok r) :
    ∃ w, r.1.waveform = some w ∧ sampledUnless P.tools f w = .ok r.2 ∧ r.1.processed ≠ none ∧ r.1.harmonics ≠ none := by
  unfold given at h
  obtain ⟨s', -, h2⟩ := bind_ok h
  exact analyse_spec h2

theorem reflected_spec {P : Processors K} {f n : K} {s : Signal K} {r : Signal K × Waveform K}
    (h : reflected P f s n = .ok r) :
    ∃ w, r.1.waveform = some w ∧ sampledUnless P.tools f w = .ok r.2 ∧ r.1.processed ≠ none ∧ r.1.harmonics ≠ none := by
  unfold reflected at h
  obtain ⟨s', -, h2⟩ := bind_ok h
  exact analyse_spec h2

theorem fromFirst_spec (windings : List (Exc K)) (i : Nat) (ratios : Option (List K))
    (signal : Exc K → Option (Signal K)) :
    fromFirst windings i ratios signal ≠ none ↔
      i = 1 ∧ ratios ≠ none ∧ ∃ first second, windings = [first, second] ∧ signal first ≠ none := by
  unfold fromFirst
  split
  · rename_i first second rs
    by_cases hi : i = 1
    · rw [if_pos hi]
      simp [hi]
    · rw [if_neg hi]
      simp [hi]
  · rename_i hno
    simp only [ne_eq, not_true, false_iff]
    rintro ⟨-, hr, first, second, rfl, -⟩
    obtain ⟨rs, hrs⟩ := Option.ne_none_iff_exists'.mp hr
    exact hno first second rs rfl hrs

theorem processCurrent_present {P : Processors K} {windings : List (Exc K)} {i : Nat} {ratios : Option (List K)}
    {e : Exc K} {c : Option (Signal K)} (h : processCurrent P windings i ratios e = .ok c) :
    (e.current ≠ none → c ≠ none) ∧ ∀ s, c = some s → s.processed ≠ none ∧ s.harmonics ≠ none ∧ s.waveform ≠ none := by
  unfold processCurrent at h
  cases hc : e.current with
  | some c0 =>
    rw [hc] at h
    obtain ⟨r, h1, h2⟩ := bind_ok h
    simp only [Res.ok.injEq] at h2
    subst h2
    obtain ⟨w, a, b, c, d⟩ := given_spec h1
    refine ⟨by simp, fun s hs => ?_⟩
    simp only [Option.some.injEq] at hs
    subst hs
    exact ⟨c, d, by rw [a]; simp⟩
  | none =>
    rw [hc] at h
    simp only at h
    refine ⟨fun hn => absurd rfl hn, ?_⟩
    split at h
    · simp only [Res.ok.injEq] at h; subst h; simp
    · simp at h
    · obtain ⟨r, h1, h2⟩ := bind_ok h
      simp only [Res.ok.injEq] at h2
      subst h2
      obtain ⟨w, a, b, c, d⟩ := reflected_spec h1
      intro s hs
      simp only [Option.some.injEq] at hs
      subst hs
      exact ⟨c, d, by rw [a]; simp⟩

theorem processCurrent_absent {P : Processors K} {windings : List (Exc K)} {i : Nat} {e : Exc K} {c : Option (Signal K)}
    (h : processCurrent P windings i none e = .ok c) (hc : e.current = none) : c = none := by
  unfold processCurrent fromFirst at h
  rw [hc] at h
  simpa using h.symm

theorem processVoltage_spec {P : Processors K} {windings : List (Exc K)} {i : Nat} {ratios : Option (List K)} {L : K}
    {e : Exc K} {st : Step K} (h : processVoltage P windings i ratios L e = .ok st) :
    st.excitation.frequency = e.frequency ∧ st.excitation.current = e.current ∧
      (st.voltage = true ↔ HasVoltage windings ratios i e ∧ ¬ (windings.length = 1 ∧ e.voltage = none)) ∧
      (st.voltage = true → st.excitation.magnetizing = e.magnetizing ∧
        ∃ s, st.pushed = some s ∧ SampledVoltage P.tools.setting st.excitation s) ∧
      (st.voltage = false → st.pushed = none) ∧
      (st.voltage = false → ¬ (windings.length = 1 ∧ e.current ≠ none) → st.excitation = e) ∧
      (st.voltage = false → windings.length = 1 → ∀ c, e.current = some c →
        st.excitation.magnetizing = some c ∧ ∃ v, P.induced e L = .ok v ∧ st.excitation.voltage = some v) := by
  unfold processVoltage at h
  cases hv : e.voltage with
  | some v =>
    rw [hv] at h
    obtain ⟨r, h1, h2⟩ := bind_ok h
    simp only [Res.ok.injEq] at h2
    subst h2
    obtain ⟨w, a, b, -, -⟩ := given_spec h1
    refine ⟨rfl, rfl, by simp [HasVoltage, hv], fun _ => ⟨rfl, r.2, rfl, r.1, w, rfl, a, sampledUnless_spec b⟩, by simp,
      by simp, by simp⟩
  | none =>
    rw [hv] at h
    simp only at h
    split at h
    · rename_i x c hc
      obtain ⟨v, h1, h2⟩ := bind_ok h
      simp only [Res.ok.injEq] at h2
      subst h2
      refine ⟨rfl, rfl, by simp [hv], by simp, by simp, by simp [hc], ?_⟩
      intro _ _ c' hc'
      rw [hc] at hc'
      simp only [Option.some.injEq] at hc'
      subst hc'
      exact ⟨rfl, v, h1, rfl⟩
    · rename_i windings w2 x2 hno
      have hnot : ¬ (windings.length = 1 ∧ e.current ≠ none) := by
        rintro ⟨hl, hc⟩
        obtain ⟨x, rfl⟩ := List.length_eq_one_iff.mp hl
        obtain ⟨c, hc⟩ := Option.ne_none_iff_exists'.mp hc
        exact hno x c rfl hc
      split at h
      · rename_i hff
        simp only [Res.ok.injEq] at h
        subst h
        have hff' : ¬ (i = 1 ∧ ratios ≠ none ∧ ∃ first second, windings = [first, second] ∧ first.voltage ≠ none) := by
          rw [← fromFirst_spec windings i ratios (fun e => e.voltage)]
          simp [hff]
        refine ⟨rfl, rfl, ?_, by simp, by simp, fun _ _ => rfl, ?_⟩
        · constructor
          · intro hx; simp at hx
          · rintro ⟨hx | hx, -⟩
            · exact absurd hv hx
            · exact absurd hx hff'
        · intro _ hl c hc
          exact absurd ⟨hl, by rw [hc]; simp⟩ hnot
      · simp at h
      · rename_i v n hff
        by_cases hn : n = 0
        · rw [if_pos hn] at h; simp at h
        · rw [if_neg hn] at h
          obtain ⟨r, h1, h2⟩ := bind_ok h
          simp only [Res.ok.injEq] at h2
          subst h2
          obtain ⟨w, a, b, -, -⟩ := reflected_spec h1
          have hff' := (fromFirst_spec windings i ratios (fun e => e.voltage)).mp (by rw [hff]; simp)
          refine ⟨rfl, rfl, ?_, fun _ => ⟨rfl, r.2, rfl, r.1, w, rfl, a, sampledUnless_spec b⟩, by simp, by simp, by simp⟩
          refine ⟨fun _ => ⟨Or.inr hff', ?_⟩, fun _ => rfl⟩
          rintro ⟨hl, -⟩
          obtain ⟨-, -, f, s, rfl, -⟩ := hff'
          simp at hl

theorem processWinding_spec {P : Processors K} {windings : List (Exc K)} {i : Nat} {ratios : Option (List K)} {L : K}
    {e : Exc K} {st : Step K} (h : processWinding P windings ratios L i e = .ok st) :
    st.excitation.frequency = e.frequency ∧ (e.current ≠ none → st.excitation.current ≠ none) ∧
      (∀ c, st.excitation.current = some c → c.processed ≠ none ∧ c.harmonics ≠ none ∧ c.waveform ≠ none) ∧
      (st.voltage = true ↔ HasVoltage windings ratios i e ∧ ¬ (windings.length = 1 ∧ e.voltage = none)) ∧
      (st.voltage = true → st.excitation.magnetizing = e.magnetizing ∧
        ∃ s, st.pushed = some s ∧ SampledVoltage P.tools.setting st.excitation s) ∧
      (st.voltage = false → st.pushed = none) ∧
      (st.voltage = false → windings.length ≠ 1 → st.excitation.magnetizing = e.magnetizing ∧
        st.excitation.voltage = e.voltage) ∧
      (st.voltage = false → windings.length = 1 → ∀ c, st.excitation.current = some c →
        st.excitation.magnetizing = some c ∧ ∃ v, st.excitation.voltage = some v ∧
          P.induced { e with current := some c } L = .ok v) ∧
      (ratios = none → e.current = none → st.excitation.current = none) := by
  unfold processWinding at h
  obtain ⟨c, h1, h2⟩ := bind_ok h
  obtain ⟨p1, p2⟩ := processCurrent_present h1
  obtain ⟨v1, v2, v3, v4, v5, v6, v7⟩ := processVoltage_spec h2
  refine ⟨v1, fun hc => by rw [v2]; exact p1 hc, fun x hx => p2 x (by rw [v2] at hx; exact hx), v3, v4, v5, ?_, ?_, ?_⟩
  · intro hf hl
    rw [v6 hf (fun hx => hl hx.1)]
    exact ⟨rfl, rfl⟩
  · intro hf hl x hx
    rw [v2] at hx
    simp only at hx
    subst hx
    obtain ⟨a, v, b, d⟩ := v7 hf hl x rfl
    exact ⟨a, v, d, b⟩
  · rintro rfl hc
    rw [v2]
    exact processCurrent_absent h1 hc

theorem processFrom_spec {P : Processors K} {windings : List (Exc K)} {ratios : Option (List K)} {L : K} :
    ∀ (es : List (Exc K)) (i : Nat) (ss : List (Step K)), processFrom P windings ratios L i es = .ok ss →
      ss.length = es.length ∧ ∀ (k : Nat) (e : Exc K) (s : Step K), es[k]? = some e → ss[k]? = some s →
        processWinding P windings ratios L (i + k) e = .ok s
  | [], i, ss, h => by
    simp only [processFrom, Res.ok.injEq] at h
    subst h
    simp
  | e :: es, i, ss, h => by
    simp only [processFrom] at h
    obtain ⟨s, h1, h2⟩ := bind_ok h
    obtain ⟨ss', h3, h4⟩ := bind_ok h2
    simp only [Res.ok.injEq] at h4
    subst h4
    obtain ⟨hl, hk⟩ := processFrom_spec es (i + 1) ss' h3
    refine ⟨by simp [hl], ?_⟩
    intro k x y hx hy
    cases k with
    | zero =>
      simp only [List.getElem?_cons_zero, Option.some.injEq] at hx hy
      subst hx hy
      simpa using h1
    | succ k =>
      simp only [List.getElem?_cons_succ] at hx hy
      have := hk k x y hx hy
      rw [show i + 1 + k = i + (k + 1) by omega] at this
      exact this

/-- When every step had a voltage, the sampled voltages are one per winding, in the order of the windings. -/
theorem pushed_aligned {A B : Type} (f : A → Option B) : ∀ (l : List A), (∀ a ∈ l, f a ≠ none) →
    (l.filterMap f).length = l.length ∧ ∀ (i : Nat) (a : A), l[i]? = some a → (l.filterMap f)[i]? = f a
  | [], _ => by simp
  | a :: l, h => by
    obtain ⟨b, hb⟩ := Option.ne_none_iff_exists'.mp (h a (by simp))
    obtain ⟨h1, h2⟩ := pushed_aligned f l (fun x hx => h x (List.mem_cons_of_mem _ hx))
    rw [List.filterMap_cons_some hb]
    refine ⟨by simp [h1], ?_⟩
    intro i x hx
    cases i with
    | zero =>
      simp only [List.getElem?_cons_zero, Option.some.injEq] at hx ⊢
      rw [← hx, hb]
    | succ i => simp only [List.getElem?_cons_succ] at hx ⊢; exact h2 i x hx

theorem generic_spec {T : Tools K} {L : K} {offset : Bool} : ∀ (es : List (Exc K)) (pushed : List (Waveform K))
    (out : List (Exc K)), generic T L offset pushed es = .ok out → out.length = es.length ∧
      ∀ (k : Nat) (e e' : Exc K), es[k]? = some e → out[k]? = some e' → genericOne T L offset pushed[k]? e = .ok e'
  | [], pushed, out, h => by simp only [generic, Res.ok.injEq] at h; subst h; simp
  | e :: es, pushed, out, h => by
    simp only [generic] at h
    obtain ⟨e', h1, h2⟩ := bind_ok h
    obtain ⟨es', h3, h4⟩ := bind_ok h2
    simp only [Res.ok.injEq] at h4
    subst h4
    obtain ⟨hl, hk⟩ := generic_spec es pushed.tail es' h3
    refine ⟨by simp [hl], ?_⟩
    intro k x y hx hy
    cases k with
    | zero =>
      simp only [List.getElem?_cons_zero, Option.some.injEq] at hx hy
      subst hx hy
      rw [← List.head?_eq_getElem?]; exact h1
    | succ k =>
      simp only [List.getElem?_cons_succ] at hx hy
      have := hk k x y hx hy
      rw [List.getElem?_tail] at this
      exact this

theorem offsetToAdd_keeps {T : Tools K} {e e' : Exc K} {b : Bool} {dc : K} (h : offsetToAdd T e b = .ok (e', dc)) :
    e'.frequency = e.frequency ∧ e'.voltage = e.voltage ∧ e'.magnetizing = e.magnetizing ∧
      (e.current ≠ none → e'.current ≠ none) := by
  unfold offsetToAdd at h
  split at h
  · split at h
    · simp only [Res.ok.injEq, Prod.mk.injEq] at h; obtain ⟨rfl, -⟩ := h; exact ⟨rfl, rfl, rfl, id⟩
    · obtain ⟨c', -, h2⟩ := bind_ok h
      split at h2
      · simp at h2
      · obtain ⟨⟨c2, d2⟩, -, h4⟩ := bind_ok h2
        simp only [Res.ok.injEq, Prod.mk.injEq] at h4
        obtain ⟨rfl, -⟩ := h4
        exact ⟨rfl, rfl, rfl, by simp⟩
  · simp only [Res.ok.injEq, Prod.mk.injEq] at h; obtain ⟨rfl, -⟩ := h; exact ⟨rfl, rfl, rfl, id⟩

theorem genericOne_spec {T : Tools K} {L : K} {offset : Bool} {pushed : Option (Waveform K)} {e e' : Exc K}
    (h : genericOne T L offset pushed e = .ok e') :
    e'.frequency = e.frequency ∧ e'.voltage = e.voltage ∧ (e.current ≠ none → e'.current ≠ none) ∧
      ((e.magnetizing ≠ none ∨ L ≤ 0) → e' = e) ∧
      (e.magnetizing = none → 0 < L → ∀ s, pushed = some s → ∃ (e1 : Exc K) (c : Signal K),
        magnetizingWithOffset T e s L false offset = .ok (e1, c) ∧ e'.magnetizing = some c) := by
  unfold genericOne at h
  by_cases hc : e.magnetizing = none ∧ L > 0
  · rw [if_pos hc] at h
    split at h
    · simp at h
    · rename_i w hw
      obtain ⟨⟨e1, c⟩, h1, h2⟩ := bind_ok h
      simp only [Res.ok.injEq] at h2
      subst h2
      have hk : e1.frequency = e.frequency ∧ e1.voltage = e.voltage ∧ (e.current ≠ none → e1.current ≠ none) := by
        unfold magnetizingWithOffset at h1
        split at h1
        · simp at h1
        · obtain ⟨⟨e2, dc⟩, a1, a2⟩ := bind_ok h1
          obtain ⟨s, -, a4⟩ := bind_ok a2
          simp only [Res.ok.injEq, Prod.mk.injEq] at a4
          obtain ⟨rfl, -⟩ := a4
          obtain ⟨k1, k2, -, k4⟩ := offsetToAdd_keeps a1
          exact ⟨k1, k2, k4⟩
      refine ⟨hk.1, hk.2.1, hk.2.2, ?_, ?_⟩
      · rintro (hx | hx)
        · exact absurd hc.1 hx
        · exact absurd hc.2 (not_lt.mpr hx)
      · intro _ _ s hs
        rw [hs] at h1
        exact ⟨e1, c, h1, rfl⟩
  · rw [if_neg hc] at h
    simp only [Res.ok.injEq] at h
    subst h
    exact ⟨rfl, rfl, id, fun _ => rfl, fun a b => absurd ⟨a, b⟩ hc⟩

/-! ## C248: what processing an operating point leaves -/

/-- **C248.** With a winding that has no voltage to work with, among several, no magnetizing current is added nor changed,
in any of the windings. -/
theorem without_voltage_none (P : Processors K) (isTopology : Bool) (ratios : Option (List K)) (L : K)
    (windings out : List (Exc K)) (hl : windings.length ≠ 1)
    (i : Nat) (e : Exc K) (hi : windings[i]? = some e) (hv : ¬ HasVoltage windings ratios i e)
    (h : processPoint P isTopology ratios L windings = .ok out) :
    out.length = windings.length ∧ ∀ (k : Nat) (x y : Exc K), windings[k]? = some x → out[k]? = some y →
      y.magnetizing = x.magnetizing := by
  unfold processPoint at h
  obtain ⟨ss, h1, h2⟩ := bind_ok h
  obtain ⟨hlen, hk⟩ := processFrom_spec windings 0 ss h1
  have hex : ¬ (ss.all fun s => s.voltage) = true := by
    intro hall
    have hlt : i < ss.length := by rw [hlen]; exact (List.getElem?_eq_some_iff.mp hi).1
    have := hk i e ss[i] hi (List.getElem?_eq_getElem hlt)
    obtain ⟨-, -, -, w4, -⟩ := processWinding_spec this
    have hs := List.all_eq_true.mp hall ss[i] (List.getElem_mem hlt)
    rw [zero_add] at w4
    exact hv (w4.mp hs).1
  rw [if_neg hex] at h2
  simp only [Res.ok.injEq] at h2
  subst h2
  refine ⟨by simp [hlen], ?_⟩
  intro k x y hx hy
  rw [List.getElem?_map, Option.map_eq_some_iff] at hy
  obtain ⟨s, hs, rfl⟩ := hy
  obtain ⟨-, -, -, -, w5, -, w7, -⟩ := processWinding_spec (hk k x s hx hs)
  cases hsv : s.voltage with
  | true => exact (w5 hsv).1
  | false => exact (w7 hsv hl).1

/-- **C248.** A single winding with a current and no voltage gets the voltage its current induces in the inductance, and
its own current as magnetizing current, whatever it had. -/
theorem single_current (P : Processors K) (isTopology : Bool) (ratios : Option (List K)) (L : K) (e : Exc K)
    (out : List (Exc K)) (hv : e.voltage = none) (hc : e.current ≠ none)
    (h : processPoint P isTopology ratios L [e] = .ok out) :
    ∃ (e' : Exc K) (c v : Signal K), out = [e'] ∧ e'.current = some c ∧ e'.magnetizing = some c ∧ e'.voltage = some v ∧
      P.induced { e with current := some c } L = .ok v := by
  unfold processPoint at h
  obtain ⟨ss, h1, h2⟩ := bind_ok h
  obtain ⟨hlen, hk⟩ := processFrom_spec [e] 0 ss h1
  obtain ⟨s, rfl⟩ := List.length_eq_one_iff.mp hlen
  have hw := hk 0 e s rfl rfl
  obtain ⟨-, w2, -, w4, -, -, -, w8, -⟩ := processWinding_spec hw
  have hf : s.voltage = false := by
    cases hs : s.voltage with
    | false => rfl
    | true => exact absurd ⟨rfl, hv⟩ (w4.mp hs).2
  rw [if_neg (by simp [hf])] at h2
  simp only [Res.ok.injEq, List.map_cons, List.map_nil] at h2
  subst h2
  obtain ⟨c, hc'⟩ := Option.ne_none_iff_exists'.mp (w2 hc)
  obtain ⟨a, v, b, d⟩ := w8 hf rfl c hc'
  exact ⟨s.excitation, c, v, rfl, hc', a, b, d⟩

/-- What comes out of `processPoint` when every winding has a voltage of its own: the windings as the loop leaves them,
each with its voltage sampled at its position. -/
theorem processPoint_all {P : Processors K} {isTopology : Bool} {ratios : Option (List K)} {L : K}
    {windings out : List (Exc K)} (hall : ∀ e ∈ windings, e.voltage ≠ none)
    (h : processPoint P isTopology ratios L windings = .ok out) :
    ∃ (mid : List (Exc K)) (pushed : List (Waveform K)), mid.length = windings.length ∧
      magnetize P isTopology L pushed mid = .ok out ∧
      ∀ (k : Nat) (x y : Exc K), windings[k]? = some x → mid[k]? = some y → y.frequency = x.frequency ∧
        y.magnetizing = x.magnetizing ∧ (x.current ≠ none → y.current ≠ none) ∧
        (ratios = none → x.current = none → y.current = none) ∧
        ∃ s, pushed[k]? = some s ∧ SampledVoltage P.tools.setting y s := by
  unfold processPoint at h
  obtain ⟨ss, h1, h2⟩ := bind_ok h
  obtain ⟨hlen, hk⟩ := processFrom_spec windings 0 ss h1
  have hev : ∀ (k : Nat) (x : Exc K) (s : Step K), windings[k]? = some x → ss[k]? = some s → s.voltage = true := by
    intro k x s hx hs
    obtain ⟨-, -, -, w4, -⟩ := processWinding_spec (hk k x s hx hs)
    have := hall x (List.mem_of_getElem? hx)
    exact w4.mpr ⟨Or.inl this, fun hc => this hc.2⟩
  have hmem : ∀ s ∈ ss, s.voltage = true ∧ ∃ w, s.pushed = some w := by
    intro s hs
    obtain ⟨k, hkl, rfl⟩ := List.mem_iff_getElem.mp hs
    have hx : windings[k]? = some (windings[k]'(by omega)) := List.getElem?_eq_getElem (by omega)
    have hs' : ss[k]? = some ss[k] := List.getElem?_eq_getElem hkl
    have ht := hev k _ _ hx hs'
    obtain ⟨-, -, -, -, w5, -⟩ := processWinding_spec (hk k _ _ hx hs')
    obtain ⟨-, w, hw, -⟩ := w5 ht
    exact ⟨ht, w, hw⟩
  rw [if_pos (List.all_eq_true.mpr fun s hs => (hmem s hs).1)] at h2
  refine ⟨_, _, by simp [hlen], h2, ?_⟩
  intro k x y hx hy
  rw [List.getElem?_map, Option.map_eq_some_iff] at hy
  obtain ⟨s, hs, rfl⟩ := hy
  obtain ⟨w1, w2, -, -, w5, -, -, -, w9⟩ := processWinding_spec (hk k x s hx hs)
  obtain ⟨a, w, b, c⟩ := w5 (hev k x s hx hs)
  refine ⟨w1, a, w2, w9, w, ?_, c⟩
  rw [(pushed_aligned (fun s : Step K => s.pushed) ss (fun s hs => by
    obtain ⟨-, w, hw⟩ := hmem s hs; rw [hw]; simp)).2 k s hs, b]

theorem stamp_at (es : List (Exc K)) (c : Signal K) (k : Nat) (e : Exc K) (h : es[k]? = some e) :
    (stamp es c)[k]? = some { e with magnetizing := some c } := by
  simp [stamp, h]

/-- **C248.** When every winding has a voltage: a magnetizing current given to the first winding is kept, and so are those
given to the others with it; else a differential mode choke comes before a common mode choke, and both before anything
else. In a choke every winding gets the same current, even those that were given one; in anything else each winding
without one gets that of its own voltage, if there is an inductance. -/
theorem process_kinds (P : Processors K) (isTopology : Bool) (ratios : Option (List K)) (L : K) (first : Exc K)
    (others out : List (Exc K)) (hall : ∀ e ∈ first :: others, e.voltage ≠ none)
    (h : processPoint P isTopology ratios L (first :: others) = .ok out) :
    ∃ mid : List (Exc K), mid.length = (first :: others).length ∧ out.length = (first :: others).length ∧
      (∀ (k : Nat) (x y : Exc K), (first :: others)[k]? = some x → out[k]? = some y → y.frequency = x.frequency ∧
        (x.current ≠ none → y.current ≠ none) ∧ y.voltage ≠ none) ∧
      ((first.magnetizing = none ∧ isTopology = true ∧ 2 ≤ mid.length ∧ mid.length ≤ 4 ∧
          ∃ c, chokeCurrent P.tools mid = .ok c ∧ ∀ y ∈ out, y.magnetizing = some c) ∨
        (first.magnetizing = none ∧ ¬ (isTopology = true ∧ 2 ≤ mid.length ∧ mid.length ≤ 4) ∧
          commonMode mid = .ok true ∧ ∃ c, P.common mid = .ok c ∧ ∀ y ∈ out, y.magnetizing = some c) ∨
        ((first.magnetizing ≠ none ∨ (¬ (isTopology = true ∧ 2 ≤ mid.length ∧ mid.length ≤ 4) ∧
            commonMode mid = .ok false)) ∧
          ∃ offset, includeOffset P.tools.setting mid others.length = .ok offset ∧
          ∀ (k : Nat) (x m y : Exc K), (first :: others)[k]? = some x → mid[k]? = some m → out[k]? = some y →
            (x.magnetizing ≠ none ∨ L ≤ 0 → y.magnetizing = x.magnetizing) ∧
            (x.magnetizing = none → 0 < L → ∃ (s : Waveform K) (e1 : Exc K) (c : Signal K),
              SampledVoltage P.tools.setting m s ∧ magnetizingWithOffset P.tools m s L false offset = .ok (e1, c) ∧
              y.magnetizing = some c))) := by
  obtain ⟨mid, pushed, hlen, hm, hk⟩ := processPoint_all hall h
  rcases mid with _ | ⟨m0, ms⟩
  · simp at hlen
  have h0 := hk 0 first m0 rfl rfl
  have hml : ms.length = others.length := by simpa using hlen
  unfold magnetize at hm
  simp only at hm
  obtain ⟨-, -, g1⟩ := bind_ok hm
  obtain ⟨offset, ho, g2⟩ := bind_ok g1
  obtain ⟨⟨dmc, cmc⟩, hkind, g3⟩ := bind_ok g2
  simp only at g3
  have volt : ∀ (k : Nat) (x y : Exc K), (first :: others)[k]? = some x → (m0 :: ms)[k]? = some y → y.voltage ≠ none := by
    intro k x y hx hy
    obtain ⟨-, -, -, -, s, -, v, w, hv, -⟩ := hk k x y hx hy
    rw [hv]; simp
  have getmid : ∀ (k : Nat) (x : Exc K), (first :: others)[k]? = some x → ∃ m, (m0 :: ms)[k]? = some m := by
    intro k x hx
    have := (List.getElem?_eq_some_iff.mp hx).1
    exact ⟨_, List.getElem?_eq_getElem (by rw [hlen]; exact this)⟩
  unfold kindOf at hkind
  simp only at hkind
  have stamped : ∀ c, out = stamp (m0 :: ms) c →
      out.length = (first :: others).length ∧
      (∀ (k : Nat) (x y : Exc K), (first :: others)[k]? = some x → out[k]? = some y → y.frequency = x.frequency ∧
        (x.current ≠ none → y.current ≠ none) ∧ y.voltage ≠ none) ∧ ∀ y ∈ out, y.magnetizing = some c := by
    rintro c rfl
    refine ⟨by simp [stamp, hml], ?_, ?_⟩
    · intro k x y hx hy
      obtain ⟨m, hm'⟩ := getmid k x hx
      rw [stamp_at _ c k m hm'] at hy
      simp only [Option.some.injEq] at hy
      subst hy
      obtain ⟨a, -, b, -⟩ := hk k x m hx hm'
      exact ⟨a, b, volt k x m hx hm'⟩
    · intro y hy
      simp only [stamp, List.mem_map] at hy
      obtain ⟨m, -, rfl⟩ := hy
      rfl
  have gen : generic P.tools L offset pushed (m0 :: ms) = .ok out →
      out.length = (first :: others).length ∧
      (∀ (k : Nat) (x y : Exc K), (first :: others)[k]? = some x → out[k]? = some y → y.frequency = x.frequency ∧
        (x.current ≠ none → y.current ≠ none) ∧ y.voltage ≠ none) ∧
      ∀ (k : Nat) (x m y : Exc K), (first :: others)[k]? = some x → (m0 :: ms)[k]? = some m → out[k]? = some y →
            (x.magnetizing ≠ none ∨ L ≤ 0 → y.magnetizing = x.magnetizing) ∧
            (x.magnetizing = none → 0 < L → ∃ (s : Waveform K) (e1 : Exc K) (c : Signal K),
              SampledVoltage P.tools.setting m s ∧ magnetizingWithOffset P.tools m s L false offset = .ok (e1, c) ∧
              y.magnetizing = some c) := by
    intro hg
    obtain ⟨gl, gk⟩ := generic_spec _ _ _ hg
    refine ⟨by rw [gl, hlen], ?_, ?_⟩
    · intro k x y hx hy
      obtain ⟨m, hm'⟩ := getmid k x hx
      obtain ⟨a1, a2, a3, -⟩ := genericOne_spec (gk k m y hm' hy)
      obtain ⟨b1, -, b3, -⟩ := hk k x m hx hm'
      exact ⟨a1.trans b1, fun hc => a3 (b3 hc), by rw [a2]; exact volt k x m hx hm'⟩
    · intro k x m y hx hm' hy
      obtain ⟨-, -, -, a4, a5⟩ := genericOne_spec (gk k m y hm' hy)
      obtain ⟨-, b2, -, -, s, b4, b5⟩ := hk k x m hx hm'
      constructor
      · intro hc
        rw [a4 (by rw [b2]; exact hc), b2]
      · intro hn hL
        obtain ⟨e1, c, d1, d2⟩ := a5 (by rw [b2]; exact hn) hL s b4
        exact ⟨s, e1, c, b5, d1, d2⟩
  by_cases hmag : m0.magnetizing ≠ none
  · rw [if_pos hmag] at hkind
    simp only [Res.ok.injEq, Prod.mk.injEq] at hkind
    obtain ⟨rfl, rfl⟩ := hkind
    simp only [Bool.false_eq_true, if_false] at g3
    obtain ⟨x1, x2, x3⟩ := gen g3
    refine ⟨m0 :: ms, hlen, x1, x2, Or.inr (Or.inr ⟨Or.inl (by rw [← h0.2.1]; exact hmag), offset, ?_, x3⟩)⟩
    rw [← hml]; exact ho
  · have hfm : first.magnetizing = none := by
      rw [← h0.2.1]; exact not_not.mp hmag
    rw [if_neg hmag] at hkind
    by_cases hd : differentialMode isTopology (m0 :: ms) = true
    · rw [if_pos hd] at hkind
      simp only [Res.ok.injEq, Prod.mk.injEq] at hkind
      obtain ⟨rfl, rfl⟩ := hkind
      simp only [if_true] at g3
      obtain ⟨c, hc, g4⟩ := bind_ok g3
      simp only [Res.ok.injEq] at g4
      obtain ⟨x1, x2, x3⟩ := stamped c g4.symm
      simp only [differentialMode, Bool.and_eq_true, decide_eq_true_eq] at hd
      exact ⟨m0 :: ms, hlen, x1, x2, Or.inl ⟨hfm, hd.1, hd.2.1, hd.2.2, c, hc, x3⟩⟩
    · rw [if_neg hd] at hkind
      have hd' : ¬ (isTopology = true ∧ 2 ≤ (m0 :: ms).length ∧ (m0 :: ms).length ≤ 4) := by
        rintro ⟨a, b, c⟩
        exact hd (by simp only [differentialMode, Bool.and_eq_true, decide_eq_true_eq]; exact ⟨a, b, c⟩)
      obtain ⟨cm, hcm, hk2⟩ := bind_ok hkind
      simp only [Res.ok.injEq, Prod.mk.injEq] at hk2
      obtain ⟨rfl, rfl⟩ := hk2
      simp only [Bool.false_eq_true, if_false] at g3
      cases cm with
      | true =>
        simp only [if_true] at g3
        obtain ⟨c, hc, g4⟩ := bind_ok g3
        simp only [Res.ok.injEq] at g4
        obtain ⟨x1, x2, x3⟩ := stamped c g4.symm
        exact ⟨m0 :: ms, hlen, x1, x2, Or.inr (Or.inl ⟨hfm, hd', hcm, c, hc, x3⟩)⟩
      | false =>
        simp only [Bool.false_eq_true, if_false] at g3
        obtain ⟨x1, x2, x3⟩ := gen g3
        refine ⟨m0 :: ms, hlen, x1, x2, Or.inr (Or.inr ⟨Or.inr ⟨hd', hcm⟩, offset, ?_, x3⟩)⟩
        rw [← hml]; exact ho

/-- **C248.** No windings at all is undefined. -/
theorem no_windings_undefined (P : Processors K) (isTopology : Bool) (ratios : Option (List K)) (L : K) :
    processPoint P isTopology ratios L [] = .ub := by
  simp [processPoint, processFrom, Res.bind, magnetize]

/-- **C248.** Two to four windings with only voltages never pass, unless the first was given a magnetizing current or the
topology is that of a differential mode choke, which needs the currents as well. -/
theorem voltages_alone_refused (P : Processors K) (L : K) (isTopology : Bool) (first : Exc K) (others : List (Exc K))
    (hl : 1 ≤ others.length ∧ others.length ≤ 3)
    (hall : ∀ e ∈ first :: others, e.voltage ≠ none ∧ e.current = none) (hm : first.magnetizing = none) :
    ∀ out, processPoint P isTopology none L (first :: others) ≠ .ok out := by
  intro out h
  obtain ⟨mid, pushed, hlen, hmz, hk⟩ := processPoint_all (fun e he => (hall e he).1) h
  rcases mid with _ | ⟨m0, ms⟩
  · simp at hlen
  have h0 := hk 0 first m0 rfl rfl
  have hml : ms.length = others.length := by simpa using hlen
  have hcur : m0.current = none := h0.2.2.2.1 rfl (hall first (by simp)).2
  have hmag : m0.magnetizing = none := h0.2.1.trans hm
  unfold magnetize at hmz
  simp only at hmz
  obtain ⟨-, -, g1⟩ := bind_ok hmz
  obtain ⟨offset, ho, g2⟩ := bind_ok g1
  obtain ⟨⟨dmc, cmc⟩, hkind, g3⟩ := bind_ok g2
  simp only [kindOf, hmag, ne_eq, not_true, if_false] at hkind
  by_cases hd : differentialMode isTopology (m0 :: ms) = true
  · rw [if_pos hd] at hkind
    simp only [Res.ok.injEq, Prod.mk.injEq] at hkind
    obtain ⟨rfl, rfl⟩ := hkind
    simp only [if_true] at g3
    obtain ⟨c, hc, -⟩ := bind_ok g3
    obtain ⟨w, hw, -⟩ := bind_ok hc
    obtain ⟨-, -, w0, ws, hf, -⟩ := (choke_sums P.tools m0 ms w).mp hw
    cases hf with
    | cons a b =>
      obtain ⟨c0, w1, e1, -⟩ := a
      rw [hcur] at e1
      simp at e1
  · rw [if_neg hd] at hkind
    obtain ⟨cm, hcm, -⟩ := bind_ok hkind
    unfold commonMode at hcm
    rw [if_neg (by simp only [List.length_cons]; omega)] at hcm
    simp only [hcur] at hcm
    simp at hcm

/-- **C248.** Every operating point is processed with the inductance at its position, those past the end with the last,
and with that of the requirements if none is given. -/
theorem inductance_per_point (asked : Asked K) (required : Res K) (i : Nat) :
    (asked = .nothing ∨ asked = .each [] → inductanceFor asked required i = required) ∧
      (∀ L, asked = .one L → inductanceFor asked required i = .ok L) ∧
      (∀ (Ls : List K) (L : K), asked = .each Ls → Ls[i]? = some L → inductanceFor asked required i = .ok L) ∧
      (∀ (Ls : List K) (last : K), asked = .each (Ls ++ [last]) → Ls.length < i →
        inductanceFor asked required i = .ok last) := by
  refine ⟨?_, ?_, ?_, ?_⟩
  · rintro (rfl | rfl) <;> rfl
  · rintro L rfl; rfl
  · rintro Ls L rfl h
    cases hl : Ls.getLast? with
    | none => rw [List.getLast?_eq_none_iff.mp hl] at h; simp at h
    | some last => simp only [inductanceFor, hl, h, Option.getD_some]
  · rintro Ls last rfl h
    have hn : (Ls ++ [last])[i]? = none := List.getElem?_eq_none (by simp; omega)
    simp only [inductanceFor, List.getLast?_concat, hn, Option.getD_none]

/-- **C248.** One point out for each point in. -/
theorem process_all (P : Processors K) (isTopology : Bool) (asked : Asked K) (required : Res K) :
    ∀ (points out : List (List (Exc K))) (i : Nat), processAll P isTopology asked required i points = .ok out →
      out.length = points.length ∧ ∀ (k : Nat) (p q : List (Exc K)), points[k]? = some p → out[k]? = some q →
        ∃ L, inductanceFor asked required (i + k) = .ok L ∧ processPoint P isTopology none L p = .ok q
  | [], out, i, h => by simp only [processAll, Res.ok.injEq] at h; subst h; simp
  | p :: ps, out, i, h => by
    simp only [processAll] at h
    obtain ⟨L, h1, h2⟩ := bind_ok h
    obtain ⟨q, h3, h4⟩ := bind_ok h2
    obtain ⟨qs, h5, h6⟩ := bind_ok h4
    simp only [Res.ok.injEq] at h6
    subst h6
    obtain ⟨hl, hk⟩ := process_all P isTopology asked required ps qs (i + 1) h5
    refine ⟨by simp [hl], ?_⟩
    intro k x y hx hy
    cases k with
    | zero =>
      simp only [List.getElem?_cons_zero, Option.some.injEq] at hx hy
      subst hx hy
      exact ⟨L, by simpa using h1, h3⟩
    | succ k =>
      simp only [List.getElem?_cons_succ] at hx hy
      have := hk k x y hx hy
      rw [show i + 1 + k = i + (k + 1) by omega] at this
      exact this

/-- Processors for the examples: processed data with an effective value of one. -/
def processors : Processors ℚ :=
  { builders := builders
    tools := { setting := 4, huge := 1000000, sine := fun _ => 0, twoPi := 6, harmonics := fun _ _ => .ok ⟨[], []⟩,
               process := fun _ _ _ => .ok ⟨.custom, 0, some 2, some 1, some 1, some (1 / 2)⟩,
               processAlone := fun _ => .ok ⟨.custom, 0, none, some 1, none, none⟩,
               guessDuty := fun _ _ => .ok (1 / 2) }
    induced := fun e L => match e.current with
      | none => .ub
      | some c => match c.waveform with
        | none => .throws
        | some w => (inducedSampled 4 w L).bind fun v => .ok ⟨some v, none, none⟩
    common := fun _ => .ok ⟨none, none, some ⟨.triangular, 0, some 2, none, none, none⟩⟩ }

/-- A winding with a voltage and a current. -/
def both (c : List ℚ) : Exc ℚ :=
  { voltageOnly with current := some ⟨some ⟨c, some [0, 1 / 4, 1 / 2, 3 / 4], none⟩, none, none⟩ }

/-- Whether there is an answer in which these are the offsets of the magnetizing currents, if any. -/
def offsetsOut (r : Res (List (Exc ℚ))) : Option (List (Option (Option ℚ))) :=
  match r with
  | .ok es => some (es.map fun e => e.magnetizing.map fun m => m.processed.map fun p => p.offset)
  | _ => none

-- one winding with both; a choke of common mode; the same with a magnetizing current given; a missing voltage
example : offsetsOut (processPoint processors false none 2 [both [0, 1, 2, 1]]) = some [some (some (-1 / 48))] := by
  decide +kernel
example : offsetsOut (processPoint processors false none 2 [both [0, 1, 2, 1], both [0, 1, 2, 1]]) =
    some [some (some 0), some (some 0)] := by decide +kernel
example : offsetsOut (processPoint processors false none 2 [both [0, 1, 2, 1], currentOnly]) = some [none, none] := by
  decide +kernel
example : offsetsOut (processPoint processors false none 2 [currentOnly]) = some [some (some 0)] := by decide +kernel
example : processPoint processors false none 2 [voltageOnly, voltageOnly] = .throws := by decide +kernel

/-- **C248.** The second of two windings, without a voltage, gets that of the first divided by the turns ratio, and, without a current, that of the
first multiplied by it. -/
theorem reflected_voltage (P : Processors K) (first e : Exc K) (rs : List K) (n L : K) (v : Signal K) (w : Waveform K) (st : Step K)
    (he : e.voltage = none) (hv : first.voltage = some v) (hw : v.waveform = some w) (hn : rs.head? = some n)
    (h : processVoltage P [first, e] 1 (some rs) L e = .ok st) : n ≠ 0 ∧ st.voltage = true ∧
      ∃ v' : Signal K, st.excitation.voltage = some v' ∧ v'.waveform = some { w with data := w.data.map (· / n) } := by
  unfold processVoltage at h
  simp only [he, fromFirst, if_true, hv, Option.map_some, hn] at h
  split_ifs at h with h0
  obtain ⟨⟨s, sw⟩, h1, h2⟩ := bind_ok h
  simp only [Res.ok.injEq] at h2
  subst h2
  unfold reflected at h1
  obtain ⟨t, h3, h4⟩ := bind_ok h1
  simp only [reflect, hw, Res.ok.injEq] at h3
  subst h3
  unfold analyse at h4
  simp only at h4
  obtain ⟨a, _, h4⟩ := bind_ok h4
  obtain ⟨b, _, h4⟩ := bind_ok h4
  obtain ⟨c, _, h4⟩ := bind_ok h4
  simp only [Res.ok.injEq, Prod.mk.injEq] at h4
  obtain ⟨h5, _⟩ := h4
  refine ⟨h0, rfl, s, rfl, ?_⟩
  rw [← h5]
  simp only [Option.some.injEq]
  congr 1
  exact List.map_congr_left fun x _ => by ring

theorem reflected_current (P : Processors K) (first e : Exc K) (rs : List K) (n : K) (c : Signal K) (w : Waveform K) (o : Option (Signal K))
    (he : e.current = none) (hc : first.current = some c) (hw : c.waveform = some w) (hn : rs.head? = some n)
    (h : processCurrent P [first, e] 1 (some rs) e = .ok o) :
      ∃ c' : Signal K, o = some c' ∧ c'.waveform = some { w with data := w.data.map (· * n) } := by
  unfold processCurrent at h
  simp only [he, fromFirst, if_true, hc, Option.map_some, hn] at h
  obtain ⟨⟨s, sw⟩, h1, h2⟩ := bind_ok h
  simp only [Res.ok.injEq] at h2
  subst h2
  unfold reflected at h1
  obtain ⟨t, h3, h4⟩ := bind_ok h1
  simp only [reflect, hw, Res.ok.injEq] at h3
  subst h3
  unfold analyse at h4
  simp only at h4
  obtain ⟨a, _, h4⟩ := bind_ok h4
  obtain ⟨b, _, h4⟩ := bind_ok h4
  obtain ⟨d, _, h4⟩ := bind_ok h4
  simp only [Res.ok.injEq, Prod.mk.injEq] at h4
  obtain ⟨h5, _⟩ := h4
  exact ⟨s, rfl, by rw [← h5]⟩

end Verif.Excitation
