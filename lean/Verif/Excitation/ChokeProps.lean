import Verif.Excitation.Current
import Verif.Waveforms.SampleProps
import Verif.Sampling.Props
import Mathlib.Algebra.Order.Field.Rat
import Mathlib.Data.Rat.Floor
import Mathlib.Tactic.NormNum
import Mathlib.Tactic.Ring
import Mathlib.Tactic.FieldSimp
import Mathlib.Tactic.IntervalCases

/-! # Differential mode chokes and reflected signals: specification and theorems -/

namespace Verif.Excitation

open Verif.Waveforms (Waveform Label Res)

set_option linter.unusedSectionVars false
set_option linter.unusedSimpArgs false

variable {K : Type} [Field K] [LinearOrder K] [IsStrictOrderedRing K] [FloorRing K]

/-! ## Specification -/

/-- The waveform a winding contributes: its current as it is when its size is a power of two, and else sampled. -/
def Contributes (T : Tools K) (frequency : K) (e : Exc K) (w : Waveform K) : Prop :=
  ∃ c w0, e.current = some c ∧ c.waveform = some w0 ∧
    (((∃ k, w0.data.length = 2 ^ k) ∧ w = w0) ∨
      ((¬ ∃ k, w0.data.length = 2 ^ k) ∧ Waveforms.sampled w0 frequency none T.setting = .ok w))

/-! ## C245: the magnetizing current of a differential mode choke -/

theorem chokeWaveform_spec (T : Tools K) (f : K) (e : Exc K) (w : Waveform K) :
    chokeWaveform T f e = .ok w ↔ Contributes T f e w := by
  unfold chokeWaveform Contributes
  cases hc : e.current with
  | none => simp
  | some c =>
    cases hw : c.waveform with
    | none => simp [hw]
    | some w0 =>
      have hp := Sampling.isSizePowerOf2_iff w0.data.length
      have hnil : w0.data = [] → ¬ ∃ k, w0.data.length = 2 ^ k := by
        rintro h ⟨k, hk⟩
        rw [h] at hk
        have := Nat.two_pow_pos k
        simp only [List.length_nil] at hk
        omega
      simp only [Option.some.injEq]
      rw [hw]
      simp only
      by_cases hq : ∃ k, w0.data.length = 2 ^ k
      · have hne : ¬ (w0.data = [] ∨ ¬ Sampling.isSizePowerOf2 w0.data.length = true) := by
          rintro (h | h)
          · exact hnil h hq
          · exact h (hp.mpr hq)
        rw [if_neg hne]
        constructor
        · intro h
          simp only [Res.ok.injEq] at h
          exact ⟨c, w0, rfl, hw, Or.inl ⟨hq, h.symm⟩⟩
        · rintro ⟨c', w1, rfl, hw1, h | h⟩ <;> rw [hw] at hw1 <;> simp only [Option.some.injEq] at hw1 <;> subst hw1
          · rw [h.2]
          · exact absurd hq h.1
      · have hy : w0.data = [] ∨ ¬ Sampling.isSizePowerOf2 w0.data.length = true :=
          Or.inr fun h => hq (hp.mp h)
        rw [if_pos hy]
        constructor
        · intro h
          exact ⟨c, w0, rfl, hw, Or.inr ⟨hq, h⟩⟩
        · rintro ⟨c', w1, rfl, hw1, h | h⟩ <;> rw [hw] at hw1 <;> simp only [Option.some.injEq] at hw1 <;> subst hw1
          · exact absurd h.1 hq
          · exact h.2

theorem chokeWaveforms_spec (T : Tools K) (f : K) : ∀ (es : List (Exc K)) (ws : List (Waveform K)),
    chokeWaveforms T f es = .ok ws ↔ List.Forall₂ (Contributes T f) es ws
  | [], ws => by
    simp only [chokeWaveforms, Res.ok.injEq, List.forall₂_nil_left_iff]
    exact eq_comm
  | e :: es, ws => by
    simp only [chokeWaveforms]
    cases h1 : chokeWaveform T f e with
    | ok w =>
      have hw := (chokeWaveform_spec T f e w).mp h1
      simp only [Res.bind]
      cases h2 : chokeWaveforms T f es with
      | ok ws' =>
        have hws := (chokeWaveforms_spec T f es ws').mp h2
        simp only [Res.ok.injEq]
        constructor
        · rintro rfl; exact List.Forall₂.cons hw hws
        · intro h
          cases h with
          | cons a b =>
            have e1 := (chokeWaveform_spec T f e _).mpr a
            have e2 := (chokeWaveforms_spec T f es _).mpr b
            rw [h1] at e1; rw [h2] at e2
            simp only [Res.ok.injEq] at e1 e2
            rw [e1, e2]
      | throws | nan | ub =>
        all_goals
          simp only [reduceCtorEq, false_iff]
          intro h
          cases h with
          | cons a b =>
            have e2 := (chokeWaveforms_spec T f es _).mpr b
            rw [h2] at e2; simp at e2
    | throws | nan | ub =>
      all_goals
        simp only [Res.bind, reduceCtorEq, false_iff]
        intro h
        cases h with
        | cons a b =>
          have e1 := (chokeWaveform_spec T f e _).mpr a
          rw [h1] at e1; simp at e1

theorem sumAt_eq (i : Nat) (ws : List (Waveform K)) : sumAt i ws = (ws.map fun w => w.data.getD i 0).sum := by
  have : ∀ (ws : List (Waveform K)) (z : K), ws.foldl (fun s w => s + w.data.getD i 0) z =
      z + (ws.map fun w => w.data.getD i 0).sum := by
    intro ws
    induction ws with
    | nil => intro z; simp
    | cons a l ih => intro z; simp only [List.foldl_cons, ih, List.map_cons, List.sum_cons]; ring
  unfold sumAt
  rw [this, zero_add]

/-- **C245.** What a choke of two to four windings is excited with has, at each point, the sum of what the windings
contribute at that point, at the times of the first: there is an answer exactly when every winding contributes as many
points as the first. -/
theorem choke_sums (T : Tools K) (e : Exc K) (es : List (Exc K)) (s : Waveform K) :
    chokeSum T (e :: es) = .ok s ↔ 2 ≤ (e :: es).length ∧ (e :: es).length ≤ 4 ∧
      ∃ (w : Waveform K) (ws : List (Waveform K)), List.Forall₂ (Contributes T e.frequency) (e :: es) (w :: ws) ∧
        (∀ x ∈ ws, x.data.length = w.data.length) ∧ s.time = w.time ∧ s.label = none ∧
        s.data.length = w.data.length ∧
        ∀ k < w.data.length, s.data[k]? = some (((w :: ws).map fun x => x.data.getD k 0).sum) := by
  unfold chokeSum
  simp only
  by_cases hn : (e :: es).length < 2 ∨ (e :: es).length > 4
  · rw [if_pos hn]
    simp only [reduceCtorEq, false_iff]
    rintro ⟨h1, h2, -⟩
    omega
  · rw [if_neg hn]
    have h2 : 2 ≤ (e :: es).length := by omega
    have h4 : (e :: es).length ≤ 4 := by omega
    have key : ∀ (w : Waveform K) (ws : List (Waveform K)), (∀ x ∈ ws, x.data.length = w.data.length) →
        ((⟨(List.range w.data.length).map fun i => sumAt i (w :: ws), w.time, none⟩ : Waveform K) = s ↔
          s.time = w.time ∧ s.label = none ∧ s.data.length = w.data.length ∧
          ∀ k < w.data.length, s.data[k]? = some (((w :: ws).map fun x => x.data.getD k 0).sum)) := by
      intro w ws _
      constructor
      · rintro rfl
        refine ⟨rfl, rfl, by simp, ?_⟩
        intro k hk
        rw [List.getElem?_map, List.getElem?_range hk, Option.map_some, sumAt_eq]
      · rintro ⟨a, b, c, d⟩
        cases s with
        | mk sd st sl =>
          simp only at a b c d
          subst a b
          rw [Waveform.mk.injEq]
          refine ⟨?_, rfl, rfl⟩
          apply List.ext_getElem? 
          intro k
          by_cases hk : k < w.data.length
          · rw [List.getElem?_map, List.getElem?_range hk, Option.map_some, sumAt_eq, d k hk]
          · rw [List.getElem?_eq_none (by simpa using hk), List.getElem?_eq_none (by omega)]
    constructor
    · intro h
      refine ⟨h2, h4, ?_⟩
      cases hw : chokeWaveforms T e.frequency (e :: es) with
      | throws | nan | ub => all_goals rw [hw] at h; simp [Res.bind] at h
      | ok all =>
        rw [hw] at h
        have hf := (chokeWaveforms_spec T e.frequency (e :: es) all).mp hw
        simp only [Res.bind] at h
        rcases all with _ | ⟨w, ws⟩
        · simp at h
        · simp only at h
          by_cases hany : (ws.any fun x => x.data.length ≠ w.data.length) = true
          · rw [if_pos hany] at h; simp at h
          · rw [if_neg hany] at h
            have hall : ∀ x ∈ ws, x.data.length = w.data.length := by
              intro x hx
              by_contra hne
              exact hany (List.any_eq_true.mpr ⟨x, hx, by simpa using hne⟩)
            simp only [Res.ok.injEq] at h
            exact ⟨w, ws, hf, hall, (key w ws hall).mp h⟩
    · rintro ⟨-, -, w, ws, hf, hall, h⟩
      rw [(chokeWaveforms_spec T e.frequency (e :: es) (w :: ws)).mpr hf]
      simp only [Res.bind]
      rw [if_neg]
      · rw [Res.ok.injEq]; exact (key w ws hall).mpr h
      · intro hany
        obtain ⟨x, hx, hne⟩ := List.any_eq_true.mp hany
        exact (by simpa using hne : ¬ x.data.length = w.data.length) (hall x hx)

theorem forall₂_perm {α β : Type} {R : α → β → Prop} {l l' : List α} (h : l.Perm l') :
    ∀ {m : List β}, List.Forall₂ R l m → ∃ m' : List β, List.Forall₂ R l' m' ∧ m.Perm m' := by
  induction h with
  | nil => intro m h; exact ⟨m, h, List.Perm.refl _⟩
  | cons a _ ih =>
    intro m h
    cases h with
    | cons x y => obtain ⟨m', e1, e2⟩ := ih y; exact ⟨_, List.Forall₂.cons x e1, e2.cons _⟩
  | swap a b l =>
    intro m h
    cases h with
    | cons x y =>
      cases y with
      | cons y z => exact ⟨_, List.Forall₂.cons y (List.Forall₂.cons x z), List.Perm.swap _ _ _⟩
  | trans _ _ ih1 ih2 =>
    intro m h
    obtain ⟨m1, e1, e2⟩ := ih1 h
    obtain ⟨m2, e3, e4⟩ := ih2 e1
    exact ⟨m2, e3, e2.trans e4⟩

/-- **C245.** The order of the windings other than the first does not matter. -/
theorem choke_order (T : Tools K) (e : Exc K) (es es' : List (Exc K)) (h : es.Perm es') (s : Waveform K)
    (hs : chokeSum T (e :: es) = .ok s) : chokeSum T (e :: es') = .ok s := by
  rw [choke_sums] at hs ⊢
  obtain ⟨h2, h4, w, ws, hf, hall, ht, hl, hd, hk⟩ := hs
  cases hf with
  | cons a b =>
    obtain ⟨ws', hf', hp⟩ := forall₂_perm h b
    have hlen := h.length_eq
    refine ⟨by simpa [← hlen] using h2, by simpa [← hlen] using h4, w, ws', List.Forall₂.cons a hf',
      fun x hx => hall x (hp.mem_iff.mpr hx), ht, hl, hd, ?_⟩
    intro k hkl
    rw [hk k hkl]
    exact congrArg some (((hp.cons w).map _).sum_eq)

/-- **C245.** Windings whose contributions cancel at every point leave the core without excitation. -/
theorem choke_balanced (T : Tools K) (e : Exc K) (es : List (Exc K)) (w : Waveform K) (ws : List (Waveform K))
    (s : Waveform K) (hf : List.Forall₂ (Contributes T e.frequency) (e :: es) (w :: ws))
    (hb : ∀ k, ((w :: ws).map fun x => x.data.getD k 0).sum = 0) (hs : chokeSum T (e :: es) = .ok s) :
    ∀ x ∈ s.data, x = 0 := by
  rw [choke_sums] at hs
  obtain ⟨-, -, w', ws', hf', -, -, -, hd, hk⟩ := hs
  have e1 := (chokeWaveforms_spec T e.frequency _ _).mpr hf
  have e2 := (chokeWaveforms_spec T e.frequency _ _).mpr hf'
  rw [e1] at e2
  simp only [Res.ok.injEq, List.cons.injEq] at e2
  obtain ⟨rfl, rfl⟩ := e2
  intro x hx
  obtain ⟨k, hkl, rfl⟩ := List.mem_iff_getElem.mp hx
  have := hk k (by omega)
  rw [List.getElem?_eq_getElem hkl, hb k] at this
  simpa using this

/-- **C245.** Fewer than two windings, or more than four, and windings whose numbers of points differ are refused. -/
theorem choke_refused (T : Tools K) (e : Exc K) (es : List (Exc K)) :
    ((e :: es).length < 2 ∨ 4 < (e :: es).length → chokeSum T (e :: es) = .throws) ∧
      (∀ (w : Waveform K) (ws : List (Waveform K)), 2 ≤ (e :: es).length → (e :: es).length ≤ 4 →
        List.Forall₂ (Contributes T e.frequency) (e :: es) (w :: ws) →
        (∃ x ∈ ws, x.data.length ≠ w.data.length) → chokeSum T (e :: es) = .throws) := by
  constructor
  · intro h
    unfold chokeSum
    simp only
    rw [if_pos (by omega)]
  · rintro w ws h2 h4 hf ⟨x, hx, hne⟩
    unfold chokeSum
    simp only
    rw [if_neg (by omega), (chokeWaveforms_spec T e.frequency _ _).mpr hf]
    simp only [Res.bind]
    rw [if_pos (List.any_eq_true.mpr ⟨x, hx, by simpa using hne⟩)]

/-- Tools for the examples: a hundred and twenty eight points. -/
def chokeTools : Tools ℚ :=
  { setting := 128, huge := 1000000, sine := fun _ => 0, twoPi := 6, harmonics := fun _ _ => .ok ⟨[], []⟩,
    process := fun _ _ _ => .ok ⟨.custom, 0, none, none, none, none⟩,
    processAlone := fun _ => .ok ⟨.custom, 0, none, none, none, none⟩, guessDuty := fun _ _ => .ok (1 / 2) }

/-- A winding with a current of these values at these times. -/
def windingOf (data times : List ℚ) : Exc ℚ :=
  { frequency := 1, voltage := none, magnetizing := none, current := some ⟨some ⟨data, some times, none⟩, none, none⟩ }

example : chokeSum chokeTools [windingOf [1, -1] [0, 1], windingOf [1, 2] [0, 1], windingOf [-2, -1] [0, 1]] =
    .ok ⟨[0, 0], some [0, 1], none⟩ := by decide +kernel

/-- **C245.** The sum is not the sum of the currents: four points are a power of two, so two unipolar triangles of
different duty cycles are added point to point, whatever their times. Here the core is said to see 2 A at a quarter of
the period, when no value of the two currents at that time adds up to that. -/
theorem choke_ignores_times :
    ∃ s, chokeSum chokeTools
        [windingOf [0, 1, 0, 0] [0, 1 / 4, 1 / 4, 1], windingOf [0, 1, 0, 0] [0, 1 / 2, 1 / 2, 1]] = .ok s ∧
      s.time = some [0, 1 / 4, 1 / 4, 1] ∧ s.data[1]? = some 2 ∧
      ∀ a b : ℚ, Waveforms.OnWaveform [0, 1, 0, 0] [0, 1 / 4, 1 / 4, 1] (1 / 4) a →
        Waveforms.OnWaveform [0, 1, 0, 0] [0, 1 / 2, 1 / 2, 1] (1 / 4) b → a + b ≤ 3 / 2 := by
  refine ⟨⟨[0, 2, 0, 0], some [0, 1 / 4, 1 / 4, 1], none⟩, by decide +kernel, rfl, rfl, ?_⟩
  rintro a b ⟨j, d0, d1, t0, t1, e1, e2, -, -, -, -, -, -, hM⟩ ⟨i, c0, c1, u0, u1, f1, f2, f3, f4, f5, f6, f7, -, -⟩
  have ha : a ≤ 1 := by
    have hb : ∀ d ∈ ([0, 1, 0, 0] : List ℚ), d ≤ 1 := by decide +kernel
    exact hM.trans (max_le (hb _ (List.mem_of_getElem? e1)) (hb _ (List.mem_of_getElem? e2)))
  have hb : b ≤ 1 / 2 := by
    rcases i with _ | _ | _ | _ | i <;> simp at f1 f2 f3 f4
    · subst f1 f2 f3 f4; norm_num at f7 ⊢; linarith
    · subst f3; norm_num at f5
    · subst f3; norm_num at f5
  linarith

/-- **C245.** A current of four points in one winding and of five in another cannot be combined: only the second is
sampled. -/
theorem choke_four_and_five :
    chokeSum chokeTools [windingOf [0, 1, 0, 0] [0, 1 / 4, 1 / 4, 1],
      windingOf [0, 1, 1, 0, 0] [0, 0, 1 / 4, 1 / 4, 1]] = .throws := by decide +kernel

/-! ## C246: reflected signals -/

/-- **C246.** Reflecting to another winding and back gives the waveform back. -/
theorem reflect_back (s t : Signal K) (w : Waveform K) (ratio : K) (hr : ratio ≠ 0) (hw : s.waveform = some w)
    (h : reflect s ratio = .ok t) : ∃ u, reflect t (1 / ratio) = .ok u ∧ u.waveform = some w := by
  simp only [reflect, hw, Res.ok.injEq] at h
  subst h
  refine ⟨_, rfl, ?_⟩
  simp only [List.map_map, Option.some.injEq]
  have : (w.data.map ((fun x => x * (1 / ratio)) ∘ fun x => x * ratio)) = w.data := by
    conv_rhs => rw [← List.map_id w.data]
    apply List.map_congr_left
    intro x _
    simp only [Function.comp, id]
    field_simp
  rw [this]

/-- **C246.** A voltage reflected by one over the turns ratio and a current by the turns ratio carry the same power at
every point, at the same times. -/
theorem reflect_power (v i v' i' : Signal K) (wv wi : Waveform K) (ratio : K) (hr : ratio ≠ 0)
    (hv : v.waveform = some wv) (hi : i.waveform = some wi)
    (h1 : reflect v (1 / ratio) = .ok v') (h2 : reflect i ratio = .ok i') :
    ∃ wv' wi' : Waveform K, v'.waveform = some wv' ∧ i'.waveform = some wi' ∧ wv'.time = wv.time ∧ wi'.time = wi.time ∧
      wv'.data.length = wv.data.length ∧ wi'.data.length = wi.data.length ∧
      ∀ (k : Nat) (a b a' b' : K), wv.data[k]? = some a → wi.data[k]? = some b → wv'.data[k]? = some a' →
        wi'.data[k]? = some b' → a' * b' = a * b ∧ a' = a / ratio ∧ b' = b * ratio := by
  simp only [reflect, hv, Res.ok.injEq] at h1
  simp only [reflect, hi, Res.ok.injEq] at h2
  subst h1 h2
  refine ⟨_, _, rfl, rfl, rfl, rfl, by simp, by simp, ?_⟩
  intro k a b a' b' e1 e2 e3 e4
  simp only [List.getElem?_map, e1, e2, Option.map_some, Option.some.injEq] at e3 e4
  subst e3 e4
  refine ⟨by field_simp, by ring, rfl⟩

/-- **C246.** The average is reflected by the ratio too. -/
theorem reflect_average (s t : Signal K) (w : Waveform K) (ratio a : K) (hw : s.waveform = some w)
    (ha : Waveforms.average w = .ok a) (h : reflect s ratio = .ok t) :
    ∃ w', t.waveform = some w' ∧ Waveforms.average w' = .ok (a * ratio) := by
  simp only [reflect, hw, Res.ok.injEq] at h
  subst h
  refine ⟨_, rfl, ?_⟩
  have := Waveforms.average_multiplied w ratio
  rw [ha] at this
  exact this

/-- **C246.** The current reflected from the primary of a flyback flows only while that of the primary does not: it is
zero until the switch opens, starts at the peak of the primary times the ratio, falls to the offset times the ratio and
ends at zero with the period. -/
theorem reflect_flyback (T : Tools K) (s t : Signal K) (p : Processed K) (w : Waveform K) (ts : List K)
    (ratio pp duty period : K) (hw : s.waveform = some w) (hts : w.time = some ts)
    (hsp : Waveforms.span ts = some period) (hper : 0 < period) (hpp : p.peakToPeak = some pp) (hd : p.duty = some duty)
    (h : reflectAs T s p ratio .flybackPrimary = .ok t) :
    t.waveform = some ⟨[0, 0, (pp + p.offset) * ratio, p.offset * ratio, 0],
      some [0, duty * period, duty * period, period, period], some .flybackSecondary⟩ := by
  simp only [reflectAs, hw, hts, hsp, hpp, hd] at h
  rw [if_neg (by simp), if_neg hper.ne'] at h
  simp only [reflectedShape, Waveforms.create, Waveforms.vertices] at h
  rw [if_neg (one_div_pos.mpr hper).ne'] at h
  simp only [Res.bind, lt_irrefl, if_false, gt_iff_lt, one_div_one_div, Res.ok.injEq] at h
  subst h
  simp only [Option.some.injEq, Waveform.mk.injEq, and_true, List.cons.injEq, true_and]
  ring

/-- **C246.** A unipolar triangle is reflected into one over the rest of the period, with the same average but for the
ratio; so is a unipolar rectangle, and with the other sign, as long as its duty cycle is not over a half. -/
theorem reflect_balance (T : Tools K) (s t : Signal K) (p : Processed K) (w w0 : Waveform K) (ts : List K)
    (label : Label) (ratio pp duty period a : K) (hw : s.waveform = some w) (hts : w.time = some ts)
    (hsp : Waveforms.span ts = some period) (hper : 0 < period) (hpp : p.peakToPeak = some pp) (hd : p.duty = some duty)
    (hd1 : duty < 1)
    (hl : label = .unipolarTriangular ∨ (label = .unipolarRectangular ∧ duty ≤ 1 / 2))
    (h0 : Waveforms.create T.sine T.twoPi label pp (1 / period) duty p.offset 0 0 0 T.setting = .ok w0)
    (ha : Waveforms.average w0 = .ok a) (h : reflectAs T s p ratio label = .ok t) :
    ∃ w', t.waveform = some w' ∧
      Waveforms.average w' = .ok (if label = .unipolarTriangular then a * ratio else -(a * ratio)) := by
  have hne : (1 : K) - duty ≠ 0 := (sub_pos.mpr hd1).ne'
  have hp0 := hper.ne'
  simp only [reflectAs, hw, hts, hsp, hpp, hd] at h
  rcases hl with rfl | ⟨rfl, hh⟩
  · rw [if_neg (by simp), if_neg hp0] at h
    simp only [reflectedShape] at h
    rw [if_neg hne] at h
    simp only [Res.bind, Res.ok.injEq] at h
    subst h
    simp only [Waveforms.create, Waveforms.vertices] at h0
    rw [if_neg (one_div_pos.mpr hper).ne'] at h0
    simp only [Res.bind, lt_irrefl, if_false, gt_iff_lt, one_div_one_div, Res.ok.injEq] at h0
    subst h0
    simp only [Waveforms.average, Waveforms.span, List.head?_cons, List.getLast?_cons_cons, List.getLast?_singleton,
      Waveforms.trapezia, Res.bind, sub_zero, List.cons_ne_nil, reduceCtorEq, if_false, if_neg hp0, Res.ok.injEq] at ha
    refine ⟨_, rfl, ?_⟩
    simp only [Waveforms.average, Waveforms.span, List.head?_cons, List.getLast?_cons_cons, List.getLast?_singleton,
      Waveforms.trapezia, Res.bind, sub_zero, List.cons_ne_nil, reduceCtorEq, if_false, if_neg hp0, Res.ok.injEq,
      if_true]
    rw [← ha]
    field_simp
    ring
  · rw [if_neg (by simp), if_neg hp0] at h
    simp only [reflectedShape] at h
    rw [if_neg hne] at h
    simp only [Res.bind, Res.ok.injEq] at h
    subst h
    simp only [Waveforms.create, Waveforms.vertices] at h0
    rw [if_neg (one_div_pos.mpr hper).ne'] at h0
    simp only [Res.bind, lt_irrefl, if_false, gt_iff_lt, one_div_one_div, Res.ok.injEq, min_eq_right hh] at h0
    subst h0
    simp only [Waveforms.average, Waveforms.span, List.head?_cons, List.getLast?_cons_cons, List.getLast?_singleton,
      Waveforms.trapezia, Res.bind, sub_zero, List.cons_ne_nil, reduceCtorEq, if_false, if_neg hp0, Res.ok.injEq] at ha
    refine ⟨_, rfl, ?_⟩
    simp only [Waveforms.average, Waveforms.span, List.head?_cons, List.getLast?_cons_cons, List.getLast?_singleton,
      Waveforms.trapezia, Res.bind, sub_zero, List.cons_ne_nil, reduceCtorEq, if_false, if_neg hp0, Res.ok.injEq]
    rw [← ha]
    field_simp
    ring

/-- **C246.** A duty cycle of one in a unipolar waveform divides by zero. -/
theorem reflect_full_duty (T : Tools K) (s : Signal K) (p : Processed K) (w : Waveform K) (ts : List K)
    (label : Label) (ratio pp period : K) (hw : s.waveform = some w) (hts : w.time = some ts)
    (hsp : Waveforms.span ts = some period) (hpp : p.peakToPeak = some pp) (hd : p.duty = some 1)
    (hl : label = .unipolarTriangular ∨ label = .unipolarRectangular) :
    reflectAs T s p ratio label = .nan := by
  by_cases hp0 : period = 0
  · rcases hl with rfl | rfl <;>
    · simp only [reflectAs, hw, hts, hsp, hpp, hd, reflectedShape, sub_self, if_true, Res.bind, reduceCtorEq, if_false]
      rw [if_pos hp0]
  · rcases hl with rfl | rfl <;>
    · simp only [reflectAs, hw, hts, hsp, hpp, hd, reflectedShape, sub_self, if_true, Res.bind, reduceCtorEq, if_false]
      rw [if_neg hp0]

/-- A unipolar rectangle of 10 V with a duty cycle of a quarter. -/
def forward : Signal ℚ :=
  ⟨some ⟨[0, 10, 10, 0, 0], some [0, 0, 1 / 4, 1 / 4, 1], none⟩, none,
    some ⟨.unipolarRectangular, 0, some 10, none, none, some (1 / 4)⟩⟩

example : reflectAs chokeTools forward ⟨.unipolarRectangular, 0, some 10, none, none, some (1 / 4)⟩ (1 / 2)
    .unipolarRectangular = .ok ⟨some ⟨[0, 0, -5 / 3, -5 / 3, 0], some [0, 1 / 4, 1 / 4, 1, 1], none⟩, none, none⟩ := by
  decide +kernel

/-- **C246.** A reflected signal has the samples multiplied by the ratio, at the same times and with the same label; harmonics and processed data,
which are of the other winding, are dropped. -/
theorem reflect_fields (s t : Signal K) (ratio : K) (h : reflect s ratio = .ok t) : t.harmonics = none ∧ t.processed = none ∧
    ∃ w w' : Waveform K, s.waveform = some w ∧ t.waveform = some w' ∧ w'.time = w.time ∧ w'.label = w.label ∧ w'.data.length = w.data.length ∧
      ∀ (i : ℕ) (x : K), w.data[i]? = some x → w'.data[i]? = some (x * ratio) := by
  unfold reflect at h
  cases hw : s.waveform with
  | none => rw [hw] at h; simp at h
  | some w =>
    rw [hw] at h
    simp only [Res.ok.injEq] at h
    subst h
    exact ⟨rfl, rfl, w, _, rfl, rfl, rfl, rfl, by simp, fun i x hx => by simp [hx]⟩

end Verif.Excitation
