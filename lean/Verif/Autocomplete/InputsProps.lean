import Verif.Autocomplete.Inputs
import Verif.Excitation.IntegrityProps

/-! # The completion of inputs: specification and theorems -/

namespace Verif.Autocomplete

open Verif.Waveforms (Waveform Label Res)
open Verif.Excitation

set_option linter.unusedSectionVars false
set_option linter.unusedSimpArgs false

variable {K : Type} [Field K] [LinearOrder K] [IsStrictOrderedRing K] [FloorRing K] {S : Type}

/-! ## Specification -/

/-- A signal with a waveform that has times, with harmonics and with processed data. -/
def Full (s : Signal K) : Prop := Standard s ∧ s.harmonics ≠ none ∧ s.processed ≠ none

/-- What is kept of a signal: the values and the label of its waveform, its harmonics, its processed data, and all of it if it was full. -/
def KeepsSignal (s s' : Signal K) : Prop :=
  (∀ w, s.waveform = some w → ∃ w', s'.waveform = some w' ∧ w'.data = w.data ∧ w'.label = w.label) ∧
    (∀ h, s.harmonics = some h → s'.harmonics = some h) ∧ (∀ p, s.processed = some p → s'.processed = some p) ∧ (Full s → s' = s)

/-- A winding with current, voltage and magnetizing current, all of them full. -/
def FullWinding (e : Exc K) : Prop :=
  (∃ c, e.current = some c ∧ Full c) ∧ (∃ v, e.voltage = some v ∧ Full v) ∧ ∃ m, e.magnetizing = some m ∧ Full m

/-! ## Lemmas -/

theorem withHarmonics_spec {X : Extra K} {f : K} {s s' : Signal K} (h : withHarmonics X f s = .ok s') :
    s'.waveform = s.waveform ∧ s'.processed = s.processed ∧ s'.harmonics ≠ none ∧ (∀ x, s.harmonics = some x → s' = s) := by
  unfold withHarmonics at h
  cases hh : s.harmonics with
  | some x => rw [hh] at h; simp only [Res.ok.injEq] at h; subst h; simp [hh]
  | none =>
    rw [hh] at h
    simp only at h
    cases hw : s.waveform with
    | none => rw [hw] at h; simp at h
    | some w =>
      rw [hw] at h
      simp only at h
      obtain ⟨sw, -, h⟩ := bind_ok h
      obtain ⟨x, -, h⟩ := bind_ok h
      simp only [Res.ok.injEq] at h
      subst h
      simp

theorem standardSignal_spec {X : Extra K} {f : K} {s s' : Signal K} (hs : Standard s) (h : standardSignal X f s = .ok s') :
    s'.waveform = s.waveform ∧ s'.harmonics = s.harmonics ∧ s'.processed ≠ none := by
  unfold standardSignal at h
  rw [standardize_standard X.builders f s hs] at h
  obtain ⟨s1, h1, h⟩ := bind_ok h
  simp only [Res.ok.injEq] at h1
  subst h1
  cases hw : s.waveform with
  | none => rw [hw] at h; simp at h
  | some w =>
    rw [hw] at h
    simp only at h
    obtain ⟨p, -, h⟩ := bind_ok h
    simp only [Res.ok.injEq] at h
    subst h
    simp [hw]

theorem completeSignal_spec {X : Extra K} {f : K} {s s' : Signal K} (hs : Standard s) (h : completeSignal X f s = .ok s') :
    Full s' ∧ s'.waveform = s.waveform ∧ (∀ x, s.harmonics = some x → s'.harmonics = some x) ∧
      (∀ p, s.processed = some p → s'.processed = some p) ∧ (Full s → s' = s) := by
  obtain ⟨w, ts, h1, h2⟩ := hs
  unfold completeSignal at h
  cases hp : s.processed with
  | some p =>
    rw [hp, h1] at h
    simp only [Option.isNone_some, Bool.or_self, Bool.false_eq_true, if_false] at h
    obtain ⟨s1, hs1, h⟩ := bind_ok h
    simp only [Res.ok.injEq] at hs1
    subst hs1
    obtain ⟨a, b, c, d⟩ := withHarmonics_spec h
    refine ⟨⟨⟨w, ts, a.trans h1, h2⟩, c, by rw [b, hp]; simp⟩, a, fun x hx => by rw [d x hx]; exact hx, fun q hq => ?_, fun hf => ?_⟩
    · rw [b, hp]; exact hq
    · obtain ⟨x, hx⟩ := Option.ne_none_iff_exists'.mp hf.2.1
      exact d x hx
  | none =>
    rw [hp, h1] at h
    simp only [Option.isNone_some, Option.isNone_none, Bool.or_true, if_true] at h
    obtain ⟨s1, hs1, h⟩ := bind_ok h
    obtain ⟨a1, a2, a3⟩ := standardSignal_spec ⟨w, ts, h1, h2⟩ hs1
    obtain ⟨a, b, c, d⟩ := withHarmonics_spec h
    refine ⟨⟨⟨w, ts, a.trans (a1.trans h1), h2⟩, c, by rw [b]; exact a3⟩, a.trans a1, fun x hx => ?_, by simp, fun hf => absurd hp hf.2.2⟩
    rw [d x (a2.trans hx)]
    exact a2.trans hx

theorem completeSignal_full (X : Extra K) (f : K) (s : Signal K) (h : Full s) : completeSignal X f s = .ok s := by
  obtain ⟨⟨w, ts, h1, -⟩, h2, h3⟩ := h
  obtain ⟨p, hp⟩ := Option.ne_none_iff_exists'.mp h3
  obtain ⟨x, hx⟩ := Option.ne_none_iff_exists'.mp h2
  simp [completeSignal, withHarmonics, h1, hp, hx, Res.bind]

theorem completeWinding_spec {X : Extra K} {e e' : Exc K} (hc : Complete e) (h : completeWinding X e = .ok e') :
    e'.frequency = e.frequency ∧ e'.magnetizing = e.magnetizing ∧
      (∃ c c', e.current = some c ∧ e'.current = some c' ∧ completeSignal X e.frequency c = .ok c' ∧ Standard c) ∧
      (e.voltage = none → e'.voltage = none) ∧
      ∀ v, e.voltage = some v → ∃ v', e'.voltage = some v' ∧ completeSignal X e.frequency v = .ok v' ∧ Standard v := by
  obtain ⟨⟨c, hcc, hcs⟩, hv⟩ := hc
  unfold completeWinding at h
  rw [hcc] at h
  simp only [completeIf] at h
  obtain ⟨c1, h1, h⟩ := bind_ok h
  obtain ⟨c2, h3, h4⟩ := bind_ok h1
  simp only [Res.ok.injEq] at h4
  subst h4
  cases hev : e.voltage with
  | none =>
    rw [hev] at h
    simp only [completeIf, Res.bind, Res.ok.injEq] at h
    subst h
    exact ⟨rfl, rfl, ⟨c, c2, hcc, rfl, h3, hcs⟩, fun _ => rfl, by simp⟩
  | some v =>
    rw [hev] at h
    simp only [completeIf] at h
    obtain ⟨v1, h5, h⟩ := bind_ok h
    obtain ⟨v2, h6, h7⟩ := bind_ok h5
    simp only [Res.ok.injEq] at h7 h
    subst h7 h
    refine ⟨rfl, rfl, ⟨c, c2, hcc, rfl, h3, hcs⟩, by simp, fun x hx => ?_⟩
    simp only [Option.some.injEq] at hx
    subst hx
    exact ⟨v2, rfl, h6, hv v hev⟩

theorem completeFirst_spec {X : Extra K} : ∀ (n : ℕ) (l l' : List (Exc K)), completeFirst X n l = .ok l' →
    l'.length = l.length ∧ n ≤ l.length ∧ ∀ (i : ℕ) (e e' : Exc K), l[i]? = some e → l'[i]? = some e' →
      (i < n → completeWinding X e = .ok e') ∧ (n ≤ i → e' = e)
  | 0, l, l', h => by
    simp only [completeFirst, Res.ok.injEq] at h
    subst h
    refine ⟨rfl, Nat.zero_le _, fun i e e' h1 h2 => ⟨by simp, fun _ => ?_⟩⟩
    rw [h1] at h2
    simpa [eq_comm] using h2
  | n + 1, [], l', h => by simp [completeFirst] at h
  | n + 1, x :: l, l', h => by
    simp only [completeFirst] at h
    obtain ⟨x', h1, h⟩ := bind_ok h
    obtain ⟨l1, h2, h⟩ := bind_ok h
    simp only [Res.ok.injEq] at h
    subst h
    obtain ⟨a, b, c⟩ := completeFirst_spec n l l1 h2
    refine ⟨by simp [a], by simp; omega, fun i e e' g1 g2 => ?_⟩
    cases i with
    | zero =>
      simp only [List.getElem?_cons_zero, Option.some.injEq] at g1 g2
      subst g1 g2
      exact ⟨fun _ => h1, by simp⟩
    | succ i =>
      simp only [List.getElem?_cons_succ] at g1 g2
      obtain ⟨k1, k2⟩ := c i e e' g1 g2
      exact ⟨fun hi => k1 (by omega), fun hi => k2 (by omega)⟩

theorem magnetizingOf_irrelevant (X : Extra K) (L : K) (e : Exc K) (m : Option (Signal K)) :
    magnetizingOf X L { e with magnetizing := m } = magnetizingOf X L e := by
  rfl

theorem magnetizeFirst_spec {X : Extra K} {inductance : List (Exc K) → Res K} : ∀ (n : ℕ) (done l r : List (Exc K)),
    magnetizeFirst X inductance n done l = .ok r → ∃ l', r = done ++ l' ∧ l'.length = l.length ∧ n ≤ l.length ∧
      ∀ (i : ℕ) (e e' : Exc K), l[i]? = some e → l'[i]? = some e' →
        (i < n → ∃ p L m, inductance p = .ok L ∧ magnetizingOf X L e = .ok m ∧ e' = { e with magnetizing := some m }) ∧
        (n ≤ i → e' = e)
  | 0, done, l, r, h => by
    simp only [magnetizeFirst, Res.ok.injEq] at h
    subst h
    refine ⟨l, rfl, rfl, Nat.zero_le _, fun i e e' h1 h2 => ⟨by simp, fun _ => ?_⟩⟩
    rw [h1] at h2
    simpa [eq_comm] using h2
  | n + 1, done, [], r, h => by simp [magnetizeFirst] at h
  | n + 1, done, x :: l, r, h => by
    simp only [magnetizeFirst] at h
    obtain ⟨L, h1, h⟩ := bind_ok h
    obtain ⟨m, h2, h⟩ := bind_ok h
    obtain ⟨l1, h3, a, b, c⟩ := magnetizeFirst_spec n _ l r h
    refine ⟨{ x with magnetizing := some m } :: l1, by simp [h3], by simp [a], by simp; omega, fun i e e' g1 g2 => ?_⟩
    cases i with
    | zero =>
      simp only [List.getElem?_cons_zero, Option.some.injEq] at g1 g2
      subst g1 g2
      exact ⟨fun _ => ⟨_, L, m, h1, h2, rfl⟩, by simp⟩
    | succ i =>
      simp only [List.getElem?_cons_succ] at g1 g2
      obtain ⟨k1, k2⟩ := c i e e' g1 g2
      exact ⟨fun hi => k1 (by omega), fun hi => k2 (by omega)⟩

theorem magnetizingOf_spec {X : Extra K} {L : K} {e : Exc K} {m : Signal K} (h : magnetizingOf X L e = .ok m) :
    e.voltage ≠ none ∧ Full m := by
  unfold magnetizingOf at h
  cases hv : e.voltage with
  | none => rw [hv] at h; simp at h
  | some v =>
    refine ⟨by simp, ?_⟩
    rw [hv] at h
    simp only at h
    obtain ⟨v1, -, h⟩ := bind_ok h
    cases hw : v1.waveform with
    | none => rw [hw] at h; simp at h
    | some w =>
      rw [hw] at h
      simp only at h
      obtain ⟨s, -, h⟩ := bind_ok h
      obtain ⟨m1, h1, h⟩ := bind_ok h
      have hst := magnetizing_standard h1
      have hf : Full m1 := by
        refine ⟨hst, ?_⟩
        unfold magnetizingCurrent at h1
        split at h1
        · simp at h1
        · obtain ⟨w1, -, h1⟩ := bind_ok h1
          obtain ⟨c1, -, h1⟩ := bind_ok h1
          obtain ⟨x1, -, h1⟩ := bind_ok h1
          obtain ⟨p1, -, h1⟩ := bind_ok h1
          obtain ⟨hi, -, h1⟩ := bind_ok h1
          obtain ⟨lo, -, h1⟩ := bind_ok h1
          simp only [Res.ok.injEq] at h1
          subst h1
          simp
      unfold withDuty at h
      split at h
      · simp only [Res.ok.injEq] at h; subst h; exact hf
      · split at h
        · simp at h
        · simp only [Res.ok.injEq] at h
          subst h
          obtain ⟨⟨w2, t2, g1, g2⟩, g3, -⟩ := hf
          exact ⟨⟨w2, t2, g1, g2⟩, g3, by simp⟩

/-- What `inputs` does to one operating point. -/
theorem point_spec {X : Extra K} {inductance : List (Exc K) → Res K} {n : ℕ} {q q1 q2 : List (Exc K)} (hc : ∀ e ∈ q, Complete e)
    (h1 : completeFirst X n q = .ok q1) (h2 : magnetizeFirst X inductance n [] q1 = .ok q2) :
    q2.length = q.length ∧ n ≤ q.length ∧ ∀ (i : ℕ) (e e2 : Exc K), q[i]? = some e → q2[i]? = some e2 →
      (n ≤ i → e2 = e) ∧ (i < n → FullWinding e2 ∧ e2.frequency = e.frequency ∧
        (∀ c, e.current = some c → ∃ c', e2.current = some c' ∧ KeepsSignal c c') ∧
        e.voltage ≠ none ∧ (∀ v, e.voltage = some v → ∃ v', e2.voltage = some v' ∧ KeepsSignal v v') ∧
        ∃ p L m, inductance p = .ok L ∧ magnetizingOf X L e2 = .ok m ∧ e2.magnetizing = some m) := by
  obtain ⟨a1, a2, a3⟩ := completeFirst_spec n q q1 h1
  obtain ⟨l', hl', b1, -, b3⟩ := magnetizeFirst_spec n [] q1 q2 h2
  simp only [List.nil_append] at hl'
  subst hl'
  refine ⟨b1.trans a1, a2, fun i e e2 he he2 => ?_⟩
  have hi : i < q1.length := by
    have := (List.getElem?_eq_some_iff.mp he).1
    omega
  obtain ⟨c1, c2⟩ := a3 i e q1[i] he (List.getElem?_eq_getElem hi)
  obtain ⟨d1, d2⟩ := b3 i q1[i] e2 (List.getElem?_eq_getElem hi) he2
  refine ⟨fun hn => (d2 hn).trans (c2 hn), fun hn => ?_⟩
  obtain ⟨p, L, m, k1, k2, k3⟩ := d1 hn
  obtain ⟨f1, f2, ⟨c, c', g1, g2, g3, g4⟩, f4, f5⟩ := completeWinding_spec (hc e (List.mem_of_getElem? he)) (c1 hn)
  obtain ⟨m1, m2⟩ := magnetizingOf_spec k2
  have hvn : e.voltage ≠ none := fun h0 => m1 (f4 h0)
  obtain ⟨v, hv⟩ := Option.ne_none_iff_exists'.mp hvn
  obtain ⟨v', hv', hv2, hv3⟩ := f5 v hv
  obtain ⟨s1, s2, s3, s4, s5⟩ := completeSignal_spec g4 g3
  obtain ⟨t1, t2, t3, t4, t5⟩ := completeSignal_spec hv3 hv2
  have keep : ∀ {x y : Signal K}, y.waveform = x.waveform → ∀ w, x.waveform = some w →
      ∃ w', y.waveform = some w' ∧ w'.data = w.data ∧ w'.label = w.label := fun hxy w hw => ⟨w, hxy.trans hw, rfl, rfl⟩
  subst k3
  refine ⟨⟨⟨c', g2, s1⟩, ⟨v', hv', t1⟩, ⟨m, rfl, m2⟩⟩, f1, fun x hx => ?_, hvn, fun x hx => ?_, p, L, m, k1,
    by rw [magnetizingOf_irrelevant]; exact k2, rfl⟩
  · rw [g1] at hx
    simp only [Option.some.injEq] at hx
    subst hx
    exact ⟨c', g2, keep s2, s3, s4, s5⟩
  · rw [hv] at hx
    simp only [Option.some.injEq] at hx
    subst hx
    exact ⟨v', hv', keep t2, t3, t4, t5⟩

theorem inputs_ok {X : Extra K} {side : ℕ → S} {inductance : List (Exc K) → Res K} {ratios : Res (List K)} {requirement : Res K}
    {given : Option (List S)} {number : ℕ} {points out : List (List (Exc K))} {ss : List S}
    (h : inputs X side inductance ratios requirement given number points = .ok (ss, out)) :
    ∃ ps made qs, checked X.builders X.tools ratios requirement points = .ok (ps, made) ∧
      overAll (completeFirst X (number + 1)) ps = .ok qs ∧ overAll (magnetizeFirst X inductance (number + 1) []) qs = .ok out ∧
      ss = sides side (given.getD []) 0 (number + 1) := by
  unfold inputs at h
  obtain ⟨⟨ps, made⟩, h1, h⟩ := bind_ok h
  obtain ⟨qs, h2, h⟩ := bind_ok h
  obtain ⟨rs, h3, h⟩ := bind_ok h
  simp only [Res.ok.injEq, Prod.mk.injEq] at h
  obtain ⟨rfl, rfl⟩ := h
  exact ⟨ps, made, qs, h1, h2, h3, rfl⟩

theorem forall₂_get {A B : Type} {R : A → B → Prop} {l : List A} {m : List B} (h : List.Forall₂ R l m) (i : ℕ) (a : A) (b : B)
    (ha : l[i]? = some a) (hb : m[i]? = some b) : R a b := by
  obtain ⟨i1, rfl⟩ := List.getElem?_eq_some_iff.mp ha
  obtain ⟨i2, rfl⟩ := List.getElem?_eq_some_iff.mp hb
  exact (List.forall₂_iff_get.mp h).2 i i1 i2

theorem keeps_trans {s s' s2 : Signal K} (h1 : s'.harmonics = s.harmonics) (h2 : s'.processed = s.processed)
    (h3 : ∀ w, s.waveform = some w → ∃ w', s'.waveform = some w' ∧ w'.data = w.data ∧ w'.label = w.label) (h4 : Standard s → s' = s)
    (h : KeepsSignal s' s2) : KeepsSignal s s2 := by
  obtain ⟨a, b, c, d⟩ := h
  refine ⟨fun w hw => ?_, fun x hx => b x (h1.trans hx), fun p hp => c p (h2.trans hp), fun hf => ?_⟩
  · obtain ⟨w', e1, e2, e3⟩ := h3 w hw
    obtain ⟨w2, g1, g2, g3⟩ := a w' e1
    exact ⟨w2, g1, g2.trans e2, g3.trans e3⟩
  · have := h4 hf.1
    rw [this] at d
    exact d hf

/-! ## Theorems -/

/-- **C254.** When inputs are completed, each operating point has an excitation per winding at least, and each of these has current, voltage and
magnetizing current, all with waveforms that have times, harmonics and processed data; and of each signal given, the values and the label of the
waveform, the harmonics and the processed data are kept. -/
theorem inputs_complete (X : Extra K) (side : ℕ → S) (inductance : List (Exc K) → Res K) (rs : List K) (requirement : Res K)
    (given : Option (List S)) (points out : List (List (Exc K))) (ss : List S)
    (h : inputs X side inductance (.ok rs) requirement given rs.length points = .ok (ss, out)) :
    List.Forall₂ (fun p q => rs.length + 1 ≤ q.length ∧ p.length ≤ q.length ∧
      (∀ (i : ℕ) (e' : Exc K), i < rs.length + 1 → q[i]? = some e' → FullWinding e') ∧
      ∀ (i : ℕ) (e e' : Exc K), i < rs.length + 1 → p[i]? = some e → q[i]? = some e' → e'.frequency = e.frequency ∧
        (∀ c, e.current = some c → ∃ c', e'.current = some c' ∧ KeepsSignal c c') ∧
        (∀ v, e.voltage = some v → ∃ v', e'.voltage = some v' ∧ KeepsSignal v v')) points out := by
  obtain ⟨ps, made, qs, h1, h2, h3, -⟩ := inputs_ok h
  obtain ⟨rs', e1, -, hf⟩ := checked_complete X.builders X.tools (.ok rs) requirement points ps made h1
  simp only [Res.ok.injEq] at e1
  subst e1
  have f2 := overAll_spec _ _ h2
  have f3 := overAll_spec _ _ h3
  rw [List.forall₂_iff_get]
  have l1 := hf.length_eq
  have l2 := f2.length_eq
  have l3 := f3.length_eq
  refine ⟨by omega, fun i i1 i2 => ?_⟩
  simp only [List.get_eq_getElem]
  obtain ⟨a1, a2, a3, -, a5⟩ := (List.forall₂_iff_get.mp hf).2 i i1 (by omega)
  have b := (List.forall₂_iff_get.mp f2).2 i (by omega) (by omega)
  have c := (List.forall₂_iff_get.mp f3).2 i (by omega) i2
  simp only [List.get_eq_getElem] at a1 a2 a3 a5 b c
  obtain ⟨d1, d2, d3⟩ := point_spec a1 b c
  refine ⟨by omega, by omega, fun j e' hj he' => ?_, fun j e e' hj he he' => ?_⟩
  · have hjl : j < ps[i].length := by omega
    exact ((d3 j ps[i][j] e' (List.getElem?_eq_getElem hjl) he').2 hj).1
  · have hjl : j < ps[i].length := by omega
    have hk := a5 j e ps[i][j] he (List.getElem?_eq_getElem hjl)
    obtain ⟨k1, k2, k3, k4, k5⟩ := hk
    obtain ⟨-, g1, g2, -, g4, -⟩ := (d3 j ps[i][j] e' (List.getElem?_eq_getElem hjl) he').2 hj
    refine ⟨g1.trans k1, fun x hx => ?_, fun x hx => ?_⟩
    · obtain ⟨x', hx1, hx2, hx3, hx4, hx5⟩ := k5 x hx
      obtain ⟨x2, hy1, hy2⟩ := g2 x' hx1
      exact ⟨x2, hy1, keeps_trans hx2 hx3 hx4 hx5 hy2⟩
    · obtain ⟨x', hx1, hx2, hx3, hx4, hx5⟩ := k3 x hx
      obtain ⟨x2, hy1, hy2⟩ := g4 x' hx1
      exact ⟨x2, hy1, keeps_trans hx2 hx3 hx4 hx5 hy2⟩

/-- **C254.** Inputs with a winding that has no voltage are never completed, although they pass the check of integrity with a current alone. -/
theorem voltage_needed (X : Extra K) (side : ℕ → S) (inductance : List (Exc K) → Res K) (rs : List K) (requirement : Res K)
    (given : Option (List S)) (points : List (List (Exc K))) (p : List (Exc K)) (hp : p ∈ points) (i : ℕ) (hi : i < rs.length + 1)
    (e : Exc K) (he : p[i]? = some e) (hv : e.voltage = none) (r : List S × List (List (Exc K))) :
    inputs X side inductance (.ok rs) requirement given rs.length points ≠ .ok r := by
  intro h
  obtain ⟨ss, out⟩ := r
  obtain ⟨ps, made, qs, h1, h2, h3, -⟩ := inputs_ok h
  obtain ⟨rs', e1, -, hf⟩ := checked_complete X.builders X.tools (.ok rs) requirement points ps made h1
  simp only [Res.ok.injEq] at e1
  subst e1
  have f2 := overAll_spec _ _ h2
  have f3 := overAll_spec _ _ h3
  have l1 := hf.length_eq
  have l2 := f2.length_eq
  have l3 := f3.length_eq
  obtain ⟨j, hj, rfl⟩ := List.mem_iff_getElem.mp hp
  obtain ⟨a1, a2, a3, -, a5⟩ := (List.forall₂_iff_get.mp hf).2 j hj (by omega)
  have b := (List.forall₂_iff_get.mp f2).2 j (by omega) (by omega)
  have c := (List.forall₂_iff_get.mp f3).2 j (by omega) (by omega)
  simp only [List.get_eq_getElem] at a1 a2 a3 a5 b c
  obtain ⟨d1, d2, d3⟩ := point_spec a1 b c
  have hil : i < ps[j].length := by omega
  have hk := a5 i e ps[j][i] he (List.getElem?_eq_getElem hil)
  have hil2 : i < out[j].length := by omega
  exact ((d3 i ps[j][i] out[j][i] (List.getElem?_eq_getElem hil) (List.getElem?_eq_getElem hil2)).2 hi).2.2.2.1 (hk.2.2.2.1 hv)

theorem sides_spec (side : ℕ → S) (given : List S) (i n : ℕ) : (sides side given i n).length = n ∧
    ∀ k, k < n → (sides side given i n)[k]? = some (match given[k]? with | some s => s | none => side (i + k)) := by
  induction n generalizing given i with
  | zero => cases given <;> simp [sides]
  | succ n ih =>
    cases given with
    | nil =>
      obtain ⟨a, b⟩ := ih [] (i + 1)
      refine ⟨by simp [sides, a], fun k hk => ?_⟩
      cases k with
      | zero => simp [sides]
      | succ k =>
        have := b k (by omega)
        simp only [sides, List.getElem?_cons_succ, this, List.getElem?_nil]
        rw [show i + 1 + k = i + (k + 1) by omega]
    | cons s given =>
      obtain ⟨a, b⟩ := ih given (i + 1)
      refine ⟨by simp [sides, a], fun k hk => ?_⟩
      cases k with
      | zero => simp [sides]
      | succ k =>
        have := b k (by omega)
        simp only [sides, List.getElem?_cons_succ, this]
        rw [show i + 1 + k = i + (k + 1) by omega]

/-- **C254.** The completed requirements have one isolation side per winding: that given, and where none is, that of the index of the winding. -/
theorem sides_complete (X : Extra K) (side : ℕ → S) (inductance : List (Exc K) → Res K) (ratios : Res (List K)) (requirement : Res K)
    (given : Option (List S)) (number : ℕ) (points out : List (List (Exc K))) (ss : List S)
    (h : inputs X side inductance ratios requirement given number points = .ok (ss, out)) :
    ss.length = number + 1 ∧ (∀ l, given = some l → ∀ k s, k < number + 1 → l[k]? = some s → ss[k]? = some s) ∧
      ∀ k, k < number + 1 → (∀ l, given = some l → l.length ≤ k) → ss[k]? = some (side k) := by
  obtain ⟨ps, made, qs, -, -, -, rfl⟩ := inputs_ok h
  obtain ⟨a, b⟩ := sides_spec side (given.getD []) 0 (number + 1)
  refine ⟨a, ?_, ?_⟩
  · rintro l rfl k s hk hs
    rw [b k hk]
    simp [hs]
  · intro k hk hl
    rw [b k hk]
    cases given with
    | none => simp
    | some l => simp [List.getElem?_eq_none (hl l rfl)]

theorem completeFirst_same (X : Extra K) : ∀ (n : ℕ) (l : List (Exc K)), n ≤ l.length →
    (∀ (i : ℕ) (e : Exc K), i < n → l[i]? = some e → FullWinding e) → completeFirst X n l = .ok l
  | 0, l, _, _ => rfl
  | n + 1, [], h, _ => by simp at h
  | n + 1, e :: l, h, hf => by
    obtain ⟨⟨c, hc, hcf⟩, ⟨v, hv, hvf⟩, -⟩ := hf 0 e (by omega) rfl
    have he : completeWinding X e = .ok e := by
      unfold completeWinding
      rw [hc, hv]
      simp only [completeIf, completeSignal_full X _ c hcf, completeSignal_full X _ v hvf, Res.bind, Res.ok.injEq]
      cases e; simp_all
    simp only [completeFirst, he, Res.bind]
    rw [completeFirst_same X n l (by simpa using h) fun i e' hi he' => hf (i + 1) e' (by omega) (by simpa using he')]

theorem magnetizeFirst_same (X : Extra K) (L : K) : ∀ (n : ℕ) (done l : List (Exc K)), n ≤ l.length →
    (∀ (i : ℕ) (e : Exc K), i < n → l[i]? = some e → ∃ m, magnetizingOf X L e = .ok m ∧ e.magnetizing = some m) →
    magnetizeFirst X (fun _ => .ok L) n done l = .ok (done ++ l)
  | 0, done, l, _, _ => rfl
  | n + 1, done, [], h, _ => by simp at h
  | n + 1, done, e :: l, h, hf => by
    obtain ⟨m, h1, h2⟩ := hf 0 e (by omega) rfl
    simp only [magnetizeFirst, h1, Res.bind]
    rw [magnetizeFirst_same X L n _ l (by simpa using h) fun i e' hi he' => hf (i + 1) e' (by omega) (by simpa using he')]
    rw [← h2]
    simp

/-- **C254.** Completing again the inputs that have been completed changes nothing, when there is no magnetic to take the inductance from. -/
theorem inputs_again (X : Extra K) (side : ℕ → S) (L : K) (rs : List K) (requirement : Res K) (given : Option (List S))
    (points out : List (List (Exc K))) (ss : List S)
    (h : inputs X side (fun _ => .ok L) (.ok rs) requirement given rs.length points = .ok (ss, out)) :
    inputs X side (fun _ => .ok L) (.ok rs) requirement (some ss) rs.length out = .ok (ss, out) := by
  have hfull := inputs_complete X side _ rs requirement given points out ss h
  obtain ⟨s1, -, -⟩ := sides_complete X side _ _ requirement given rs.length points out ss h
  obtain ⟨ps, made, qs, h1, h2, h3, -⟩ := inputs_ok h
  obtain ⟨rs', e1, -, hf⟩ := checked_complete X.builders X.tools (.ok rs) requirement points ps made h1
  simp only [Res.ok.injEq] at e1
  subst e1
  have f2 := overAll_spec _ _ h2
  have f3 := overAll_spec _ _ h3
  have l1 := hf.length_eq
  have l2 := f2.length_eq
  have l3 := f3.length_eq
  have key : ∀ q ∈ out, (∀ e ∈ q, Complete e) ∧ rs.length + 1 ≤ q.length ∧
      (∀ (i : ℕ) (e : Exc K), i < rs.length + 1 → q[i]? = some e → FullWinding e) ∧
      ∀ (i : ℕ) (e : Exc K), i < rs.length + 1 → q[i]? = some e → ∃ m, magnetizingOf X L e = .ok m ∧ e.magnetizing = some m := by
    intro q hq
    obtain ⟨j, hj, rfl⟩ := List.mem_iff_getElem.mp hq
    obtain ⟨a1, a2, a3, -, -⟩ := (List.forall₂_iff_get.mp hf).2 j (by omega) (by omega)
    have b := (List.forall₂_iff_get.mp f2).2 j (by omega) (by omega)
    have c := (List.forall₂_iff_get.mp f3).2 j (by omega) (by omega)
    simp only [List.get_eq_getElem] at a1 a2 a3 b c
    obtain ⟨d1, d2, d3⟩ := point_spec a1 b c
    have get : ∀ (i : ℕ) (e : Exc K), out[j][i]? = some e → ∃ e0, ps[j][i]? = some e0 := by
      intro i e he
      have := (List.getElem?_eq_some_iff.mp he).1
      exact ⟨ps[j][i]'(by omega), List.getElem?_eq_getElem (by omega)⟩
    refine ⟨fun e he => ?_, by omega, fun i e hi he => ?_, fun i e hi he => ?_⟩
    · obtain ⟨i, hi, rfl⟩ := List.mem_iff_getElem.mp he
      obtain ⟨e0, he0⟩ := get i _ (List.getElem?_eq_getElem hi)
      obtain ⟨g1, g2⟩ := d3 i e0 _ he0 (List.getElem?_eq_getElem hi)
      rcases Nat.lt_or_ge i (rs.length + 1) with hlt | hge
      · obtain ⟨⟨c1, hc1, hc2⟩, ⟨v1, hv1, hv2⟩, -⟩ := (g2 hlt).1
        refine ⟨⟨c1, hc1, hc2.1⟩, fun v hv => ?_⟩
        rw [hv1] at hv
        simp only [Option.some.injEq] at hv
        subst hv
        exact hv2.1
      · rw [g1 hge]
        exact a1 e0 (List.mem_of_getElem? he0)
    · obtain ⟨e0, he0⟩ := get i e he
      exact ((d3 i e0 e he0 he).2 hi).1
    · obtain ⟨e0, he0⟩ := get i e he
      obtain ⟨-, -, -, -, -, p, L', m, k1, k2, k3⟩ := (d3 i e0 e he0 he).2 hi
      simp only [Res.ok.injEq] at k1
      subst k1
      exact ⟨m, k2, k3⟩
  have hchk : checked X.builders X.tools (.ok rs) requirement out = .ok (out, false) := by
    unfold checked
    rw [if_neg]
    · simp only [Res.bind]
      rw [overAll_same out (fun q hq => by
        have := completeFrom_same X.builders X.tools rs.length requirement q [] (key q hq).1
        simpa using this)]
      simp only
      have : overAll (addMissing rs) out = .ok (out.map fun q => (q, false)) := by
        have hk : ∀ q ∈ out, rs.length + 1 ≤ q.length := fun q hq => (key q hq).2.1
        clear key h h3 f3 hfull l3
        induction out with
        | nil => rfl
        | cons q qs ih =>
          simp only [overAll, List.map_cons]
          rw [ih (fun x hx => hk x (List.mem_cons_of_mem _ hx))]
          have hl := hk q (by simp)
          rcases q with _ | ⟨p, os⟩
          · simp at hl
          · rw [(missing_windings rs p os).1 (by simpa using hl)]
            rfl
      rw [this]
      simp only [List.map_map, Res.ok.injEq, Prod.mk.injEq, List.any_map]
      refine ⟨?_, ?_⟩
      · conv_rhs => rw [← List.map_id out]
        rfl
      · simp [Function.comp]
    · intro hany
      obtain ⟨q, hq, he⟩ := List.any_eq_true.mp hany
      have := (key q hq).2.1
      simp only [decide_eq_true_eq] at he
      rw [he] at this
      simp at this
  unfold inputs
  rw [hchk]
  simp only [Res.bind]
  rw [overAll_same out fun q hq => completeFirst_same X _ q (key q hq).2.1 (key q hq).2.2.1]
  simp only
  rw [overAll_same out fun q hq => by
    have := magnetizeFirst_same X L _ [] q (key q hq).2.1 (key q hq).2.2.2
    simpa using this]
  simp only [Option.getD_some, Res.ok.injEq, Prod.mk.injEq, and_true]
  obtain ⟨a, b⟩ := sides_spec side ss 0 (rs.length + 1)
  refine List.ext_getElem? fun k => ?_
  rcases Nat.lt_or_ge k (rs.length + 1) with hk | hk
  · rw [b k hk]
    have : k < ss.length := by omega
    simp [List.getElem?_eq_getElem this]
  · rw [List.getElem?_eq_none (by omega), List.getElem?_eq_none (by omega)]

/-! ## A case -/

/-- Four points per waveform. -/
def extra : Extra ℚ :=
  { builders := { create := fun _ _ => .throws, reconstruct := fun _ _ => .throws }
    tools := tools
    processHarmonics := fun _ _ => .ok ⟨.custom, 0, none, none, none, some (1 / 2)⟩
    processWaveform := fun _ _ => .ok ⟨.custom, 0, none, none, none, some (1 / 2)⟩ }

/-- A winding with a square voltage, and a current. -/
def square (v : ℚ) : Exc ℚ :=
  { frequency := 1, magnetizing := none
    voltage := some ⟨some ⟨[v, v, -v, -v], some [0, 1 / 4, 1 / 2, 3 / 4], none⟩, none, none⟩
    current := some ⟨some ⟨[1, 2, 2, 1], some [0, 1 / 4, 1 / 2, 3 / 4], none⟩, none, none⟩ }

/-- The largest value of the magnetizing current of a winding of the first operating point. -/
def peakOf (r : Res (List ℕ × List (List (Exc ℚ)))) (i : ℕ) : Option ℚ :=
  match r with
  | .ok (_, p :: _) => (p[i]?.bind fun e => e.magnetizing.bind fun m => m.waveform).map fun w => w.data.foldl max 0
  | _ => none

/-- A transformer of ratio 2 with the voltages of its two windings, 8 and 4, and an inductance of 1 referred to the primary. -/
def transformer : Res (List ℕ × List (List (Exc ℚ))) :=
  inputs extra (fun i => i) (fun _ => .ok 1) (.ok [2]) (.ok 1) none 1 [[square 8, square 4]]

/-- **C254.** The magnetizing current put in the secondary does not have the ampere-turns of that in the primary: with a ratio of 2 it should be twice
that of the primary and is half of it, since the inductance referred to the primary is used for both. -/
theorem secondary_current_of_primary_inductance : ∃ a b : ℚ, peakOf transformer 0 = some a ∧ peakOf transformer 1 = some b ∧
    0 < a ∧ b = a / 2 ∧ b ≠ 2 * a := by
  have h0 : peakOf transformer 0 = some (5333333333000000000 / 5333333330666666667) := by decide +kernel
  have h1 : peakOf transformer 1 = some (2666666666500000000 / 5333333330666666667) := by decide +kernel
  exact ⟨_, _, h0, h1, by norm_num, by norm_num, by norm_num⟩

/-- Inputs that are completed. -/
example : ∃ ss out, inputs extra (fun i => i) (fun _ => .ok 1) (.ok [2]) (.ok 1) none 1 [[square 8, square 4]] = .ok (ss, out) := by
  have h : (peakOf transformer 1).isSome = true := by decide +kernel
  unfold transformer at h
  rcases hr : inputs extra (fun i => i) (fun _ => .ok 1) (.ok [2]) (.ok 1) none 1 [[square 8, square 4]] with ⟨ss, out⟩ | _ | _ | _
  · exact ⟨ss, out, rfl⟩
  all_goals rw [hr] at h; simp [peakOf] at h

/-- The same when the secondary is left out: it is made of the primary, that has both signals. -/
example : (peakOf (inputs extra (fun i => i) (fun _ => .ok 1) (.ok [2]) (.ok 1) none 1 [[square 8]]) 1).isSome = true := by decide +kernel

/-- A current alone passes the check of integrity, and is not completed. -/
example : (∃ p, checked extra.builders extra.tools (.ok []) (.ok 1) [[{ square 8 with voltage := none }]] = .ok p) ∧
    ∀ r, inputs extra (fun i => i) (fun _ => .ok 1) (.ok []) (.ok 1) none 0 [[{ square 8 with voltage := none }]] ≠ .ok r :=
  ⟨⟨_, rfl⟩, fun r => voltage_needed extra (fun i => i) (fun _ => .ok 1) [] (.ok 1) none _ _ List.mem_cons_self 0 (by simp) _ rfl rfl r⟩

/-- A full signal. -/
example : Full (⟨some ⟨[1, 2], some [0, 1], none⟩, some ⟨[], []⟩, some ⟨.custom, 0, none, none, none, none⟩⟩ : Signal ℚ) :=
  ⟨⟨_, _, rfl, rfl⟩, by simp, by simp⟩

/-- **C254.** The magnetizing current has the duty cycle of the voltage it comes from, if that has one. -/
theorem magnetizing_duty {X : Extra K} {L : K} {e : Exc K} {m : Signal K} (h : magnetizingOf X L e = .ok m) {v : Signal K} {p : Processed K} {d : K}
    (hv : e.voltage = some v) (hp : v.processed = some p) (hd : p.duty = some d) : ∃ p' : Processed K, m.processed = some p' ∧ p'.duty = some d := by
  unfold magnetizingOf at h
  rw [hv] at h
  simp only at h
  obtain ⟨v1, -, h⟩ := bind_ok h
  split at h
  · simp at h
  · obtain ⟨s, -, h⟩ := bind_ok h
    obtain ⟨m1, -, h⟩ := bind_ok h
    unfold withDuty at h
    simp only [hv, Option.bind_some, hp, hd] at h
    split at h
    · simp at h
    · simp only [Res.ok.injEq] at h
      subst h
      exact ⟨_, rfl, rfl⟩

end Verif.Autocomplete
