import Verif.Datasheet.Lemmas
import Mathlib.Algebra.Order.Ring.Rat
import Mathlib.Algebra.Field.Rat

/-! # C16: a part and its datasheet limits -/

set_option linter.unusedSectionVars false

namespace Verif.Datasheet

variable {K : Type} [Field K] [LinearOrder K] [IsStrictOrderedRing K]

/-! ## Specification -/

/-- The published entry states the limit `l` for a quantity that takes the value `o` in winding `i`: rated RMS
current (one for all windings, or one per winding), saturation peak current, rated AC voltage, rated DC voltage. -/
inductive Limits (e : Entry K) (i : Nat) (x : Excitation K) : K → K → Prop where
  | currentShared {l o : K} : e.ratedCurrents = some [l] → x.currentRms = some o → Limits e i x l o
  | currentOwn {ls : List K} {l o : K} : e.ratedCurrents = some ls → 2 ≤ ls.length → ls[i]? = some l →
      x.currentRms = some o → Limits e i x l o
  | saturation {l o : K} : e.saturationPeak = some l → x.currentPeak = some o → Limits e i x l o
  | ac {l o : K} : e.voltageAc = some l → x.voltageRms = some o → Limits e i x l o
  | dc {l v : K} : e.voltageDc = some l → x.voltageOffset = some v → Limits e i x l |v|

/-- Some operating point brings the value `o` against the limit `l`. -/
def Meets (e : Entry K) (ops : List (List (Excitation K))) (l o : K) : Prop :=
  ∃ op ∈ ops, ∃ (i : Nat) (x : Excitation K), op[i]? = some x ∧ Limits e i x l o

/-- The relative distance of a value to its limit, between 0 (used up) and 1 (untouched); 1 for a limit that is
not positive. -/
def margin (l o : K) : K := if l ≤ 0 then 1 else max 0 (min 1 (1 - o / l))

/-- The entry the part is judged by: the only one; else the first whose turns are those of the coil; else the one
with the smallest rated current; else the first. -/
def Judged (es : List (Entry K)) (turns : List K) (e : Entry K) : Prop :=
  e ∈ es ∧ (es.length = 1 ∨
    (∃ t n, turns.head? = some t ∧ e.turns = some n ∧ |n - t| < 1 / 2 ∧
      ∃ j, es[j]? = some e ∧ ∀ e' ∈ es.take j, ∀ n', e'.turns = some n' → ¬ |n' - t| < 1 / 2) ∨
    ((∀ t, turns.head? = some t → ∀ e' ∈ es, ∀ n, e'.turns = some n → ¬ |n - t| < 1 / 2) ∧
      ∀ e' ∈ es, ∀ l ∈ e'.ratedCurrents.getD [], ∃ b ∈ e.ratedCurrents.getD [], b ≤ l))

/-! ## Theorems -/

theorem headroom_eq_margin (l o : K) : headroom l o = margin l o := by
  unfold headroom margin
  by_cases h : l ≤ 0
  · rw [if_pos h, if_pos h]
  · rw [if_neg h, if_neg h]
    have hl : l ≠ 0 := fun e => h e.le
    have e : (l - o) / l = 1 - o / l := by rw [sub_div, div_self hl]
    simp only [e]
    by_cases h1 : 1 - o / l < 0
    · rw [if_pos h1, min_eq_right (le_trans h1.le zero_le_one), max_eq_left h1.le]
    · rw [if_neg h1]
      by_cases h2 : 1 < 1 - o / l
      · rw [if_pos h2, min_eq_left h2.le, max_eq_right zero_le_one]
      · rw [if_neg h2, min_eq_right (not_lt.mp h2), max_eq_right (not_lt.mp h1)]

theorem limits_iff (e : Entry K) (i : Nat) (x : Excitation K) (l o : K) :
    Limits e i x l o ↔ WindingCheck e i x l o ∨ (e.saturationPeak = some l ∧ x.currentPeak = some o) := by
  constructor
  · intro h
    cases h with
    | currentShared h1 h2 => exact Or.inl (Or.inl ⟨by unfold ratedLimit; rw [h1], h2⟩)
    | @currentOwn ls _ _ h1 h2 h3 h4 =>
      refine Or.inl (Or.inl ⟨?_, h4⟩)
      unfold ratedLimit
      rw [h1]
      match ls, h2 with
      | a :: b :: r, _ => exact h3
    | saturation h1 h2 => exact Or.inr ⟨h1, h2⟩
    | ac h1 h2 => exact Or.inl (Or.inr (Or.inl ⟨h1, h2⟩))
    | dc h1 h2 => exact Or.inl (Or.inr (Or.inr ⟨h1, by rw [h2]; rfl⟩))
  · rintro ((⟨h1, h2⟩ | ⟨h1, h2⟩ | ⟨h1, h2⟩) | ⟨h1, h2⟩)
    · unfold ratedLimit at h1
      cases hr : e.ratedCurrents with
      | none => rw [hr] at h1; cases h1
      | some ls =>
        rw [hr] at h1
        match ls, hr with
        | [], _ => cases h1
        | [a], hr => simp only [Option.some.injEq] at h1; subst h1; exact .currentShared hr h2
        | a :: b :: r, hr => exact .currentOwn hr (by simp) h1 h2
    · exact .ac h1 h2
    · cases ho : x.voltageOffset with
      | none => rw [ho] at h2; cases h2
      | some v =>
        rw [ho] at h2
        simp only [Option.map_some, Option.some.injEq] at h2
        rw [← h2]
        exact .dc h1 ho
    · exact .saturation h1 h2

/-- What the loop over the operating points establishes. -/
theorem points_holds {e : Entry K} (hs : ∀ s, e.saturationPeak = some s → 0 ≤ s) {ops : List (List (Excitation K))}
    {v : Verdict K} {P : K → K → Prop} (h : Holds v P) :
    Holds (points e ops v) (fun l o => P l o ∨ Meets e ops l o) := by
  induction ops generalizing v P with
  | nil => exact holds_congr h (by simp [Meets])
  | cons op ops ih =>
    simp only [points]
    have hw := windings_verdict (e := e) (xs := op) (i := 0) (pk := none) h
    have one : Holds ((windings e op 0 v none).1.check? e.saturationPeak (windings e op 0 v none).2)
        (fun l o => P l o ∨ ∃ (i : Nat) (x : Excitation K), op[i]? = some x ∧ Limits e i x l o) := by
      have base : ∀ l o, (P l o ∨ ∃ (k : Nat) (x : Excitation K), op[k]? = some x ∧ WindingCheck e (0 + k) x l o) →
          (P l o ∨ ∃ (i : Nat) (x : Excitation K), op[i]? = some x ∧ Limits e i x l o) := by
        rintro l o (hp | ⟨k, x, hx, hc⟩)
        · exact Or.inl hp
        · exact Or.inr ⟨k, x, hx, (limits_iff _ _ _ _ _).mpr (Or.inl (by simpa using hc))⟩
      cases hsat : e.saturationPeak with
      | none =>
        refine holds_congr hw (fun l o => ⟨base l o, ?_⟩)
        rintro (hp | ⟨i, x, hx, hl⟩)
        · exact Or.inl hp
        · rcases (limits_iff _ _ _ _ _).mp hl with hc | ⟨hc, _⟩
          · exact Or.inr ⟨i, x, hx, by simpa using hc⟩
          · rw [hsat] at hc; cases hc
      | some s =>
        have hs0 := hs s hsat
        obtain ⟨p1, p2⟩ := windings_peak (v := v) (pk := none) (i := 0) (xs := op) hsat (by simp)
        cases hpk : (windings e op 0 v none).2 with
        | none =>
          have := (p2.mp hpk).2
          refine holds_congr hw (fun l o => ⟨base l o, ?_⟩)
          rintro (hp | ⟨i, x, hx, hl⟩)
          · exact Or.inl hp
          · rcases (limits_iff _ _ _ _ _).mp hl with hc | ⟨_, hc⟩
            · exact Or.inr ⟨i, x, hx, by simpa using hc⟩
            · rw [this x (List.mem_of_getElem? hx)] at hc; cases hc
        | some q =>
          obtain ⟨q0, _, q2, q3⟩ := p1 q hpk
          have hv := holds_check hw s q
          obtain ⟨c1, c2, c3, c4, c5⟩ := hv
          have hasPeak : ∃ x ∈ op, ∃ p, x.currentPeak = some p := by
            by_contra hn
            have : (windings e op 0 v none).2 = none := by
              rw [p2]
              refine ⟨rfl, fun x hx => ?_⟩
              cases hxp : x.currentPeak with
              | none => rfl
              | some p => exact absurd ⟨x, hx, p, hxp⟩ hn
            rw [hpk] at this; cases this
          have limOfPeak : ∀ x ∈ op, ∀ p, x.currentPeak = some p →
              ∃ (i : Nat) (x : Excitation K), op[i]? = some x ∧ Limits e i x s p := by
            intro x hx p hp
            obtain ⟨i, hi, hxi⟩ := List.mem_iff_getElem.mp hx
            refine ⟨i, x, ?_, .saturation hsat hp⟩
            rw [List.getElem?_eq_getElem hi, hxi]
          have hq1 : headroom s 0 = 1 := by
            rw [headroom_eq_margin]; unfold margin
            split
            · rfl
            · simp
          show Holds ((windings e op 0 v none).1.check s q) _
          refine ⟨?_, ?_, c3, ?_, ?_⟩
          · rw [c1]
            constructor
            · rintro hh l o (hp | ⟨i, x, hx, hl⟩)
              · exact hh l o (Or.inl (Or.inl hp))
              · rcases (limits_iff _ _ _ _ _).mp hl with hc | ⟨hc, hc'⟩
                · exact hh l o (Or.inl (Or.inr ⟨i, x, hx, by simpa using hc⟩))
                · rw [hsat] at hc; cases hc
                  exact le_trans (q2 x (List.mem_of_getElem? hx) o hc') (hh s q (Or.inr ⟨rfl, rfl⟩))
            · rintro hh l o (hb | ⟨rfl, rfl⟩)
              · exact hh l o (base l o hb)
              · rcases q3 with q3 | q3 | ⟨x, hx, q3⟩
                · rw [q3]; exact hs0
                · cases q3
                · exact hh _ _ (Or.inr (limOfPeak x hx _ q3))
          · rintro l o (hp | ⟨i, x, hx, hl⟩)
            · exact c2 l o (Or.inl (Or.inl hp))
            · rcases (limits_iff _ _ _ _ _).mp hl with hc | ⟨hc, hc'⟩
              · exact c2 l o (Or.inl (Or.inr ⟨i, x, hx, by simpa using hc⟩))
              · rw [hsat] at hc; cases hc
                exact le_trans (c2 s q (Or.inr ⟨rfl, rfl⟩))
                  (headroom_antitone (q2 x (List.mem_of_getElem? hx) o hc'))
          · rcases c4 with c4 | ⟨l, o, hlo, c4⟩
            · exact Or.inl c4
            · rcases hlo with hb | ⟨rfl, rfl⟩
              · exact Or.inr ⟨l, o, base l o hb, c4⟩
              · rcases q3 with q3 | q3 | ⟨x, hx, q3⟩
                · left; rw [c4, q3]; exact hq1
                · cases q3
                · exact Or.inr ⟨_, _, Or.inr (limOfPeak x hx _ q3), c4⟩
          · rw [c5]
            constructor
            · intro _
              obtain ⟨x, hx, p, hp⟩ := hasPeak
              exact ⟨s, p, Or.inr (limOfPeak x hx p hp)⟩
            · intro _
              exact ⟨s, q, Or.inr ⟨rfl, rfl⟩⟩
    refine holds_congr (ih one) (fun l o => ?_)
    unfold Meets
    constructor
    · rintro ((hp | hx) | ⟨op', hop, hx⟩)
      · exact Or.inl hp
      · exact Or.inr ⟨op, List.mem_cons_self, hx⟩
      · exact Or.inr ⟨op', List.mem_cons_of_mem _ hop, hx⟩
    · rintro (hp | ⟨op', hop, hx⟩)
      · exact Or.inl (Or.inl hp)
      · rcases List.mem_cons.mp hop with rfl | hop
        · exact Or.inl (Or.inr hx)
        · exact Or.inr ⟨op', hop, hx⟩

theorem smallestRated_some {e : Entry K} {b : K} (h : smallestRated e = some b) :
    b ∈ e.ratedCurrents.getD [] ∧ ∀ l ∈ e.ratedCurrents.getD [], b ≤ l := by
  unfold smallestRated at h
  split at h
  · rename_i x l hr
    cases h
    obtain ⟨h1, h2, h3⟩ := minOf_le x l
    rw [hr]
    refine ⟨h3, fun y hy => ?_⟩
    rcases List.mem_cons.mp hy with rfl | hy
    · exact h1
    · exact h2 y hy
  · cases h

theorem smallestRated_none {e : Entry K} (h : smallestRated e = none) : e.ratedCurrents.getD [] = [] := by
  unfold smallestRated at h
  split at h
  · cases h
  · rename_i hn
    cases hr : e.ratedCurrents with
    | none => rfl
    | some l =>
      cases l with
      | nil => rfl
      | cons x l => exact absurd hr (hn x l)

/-- C16: the entry used exists and is the one described. -/
theorem select_judged {es : List (Entry K)} (turns : List K) (hne : es ≠ []) :
    ∃ e, es[select es turns]? = some e ∧ Judged es turns e := by
  have hpos : 0 < es.length := List.length_pos_iff.mpr hne
  by_cases h1 : es.length = 1
  · unfold select
    rw [if_pos h1]
    refine ⟨es[0], List.getElem?_eq_getElem hpos, List.getElem_mem _, Or.inl h1⟩
  · have cons : (∀ t, turns.head? = some t → ∀ e' ∈ es, ∀ n, e'.turns = some n → ¬ |n - t| < 1 / 2) →
        ∃ e, es[conservative es 0 none]? = some e ∧ Judged es turns e := by
      intro hno
      have := conservative_spec (es := es) (pre := []) (best := none) (by simp)
      simp only [List.length_nil, List.nil_append] at this
      rcases this with ⟨hnone, h0⟩ | ⟨e, b, hget, hb, hmin⟩
      · rw [h0]
        refine ⟨es[0], List.getElem?_eq_getElem hpos, List.getElem_mem _, Or.inr (Or.inr ⟨hno, ?_⟩)⟩
        intro e' he' l hl
        rw [smallestRated_none (hnone e' he')] at hl
        cases hl
      · refine ⟨e, hget, List.mem_of_getElem? hget, Or.inr (Or.inr ⟨hno, ?_⟩)⟩
        intro e' he' l hl
        cases hs : smallestRated e' with
        | none => rw [smallestRated_none hs] at hl; cases hl
        | some s =>
          exact ⟨b, (smallestRated_some hb).1,
            le_trans (hmin e' he' s hs) ((smallestRated_some hs).2 l hl)⟩
    unfold select
    rw [if_neg h1]
    cases turns with
    | nil => exact cons (by simp)
    | cons t ts =>
      simp only
      cases hm : matchTurns t es 0 with
      | some k =>
        obtain ⟨j, e, n, hk, he, hn, hd, hf⟩ := matchTurns_some hm
        simp only [Nat.zero_add] at hk
        subst hk
        exact ⟨e, he, List.mem_of_getElem? he, Or.inr (Or.inl ⟨t, n, rfl, hn, hd, _, he, hf⟩)⟩
      | none =>
        refine cons ?_
        intro t' ht'
        simp only [List.head?_cons, Option.some.injEq] at ht'
        subst ht'
        exact matchTurns_none hm

/-- C16: a part without published electrical data is accepted with score 1. -/
theorem no_datasheet (turns : List K) (ops : List (List (Excitation K))) :
    evaluate none turns ops = some (true, 1) ∧ evaluate (some []) turns ops = some (true, 1) := ⟨rfl, rfl⟩

/-- C16: a part with published entries is accepted exactly when no limit of the entry it is judged by is exceeded
in any operating point; its score is the smallest margin, between 0 and 1, and 1 when nothing limits it. -/
theorem accepted_iff {es : List (Entry K)} {turns : List K} {ops : List (List (Excitation K))} (hne : es ≠ [])
    (hs : ∀ e ∈ es, ∀ s, e.saturationPeak = some s → 0 ≤ s) :
    ∃ e valid score, Judged es turns e ∧ evaluate (some es) turns ops = some (valid, score) ∧
      (valid = true ↔ ∀ l o, Meets e ops l o → o ≤ l) ∧
      0 ≤ score ∧ score ≤ 1 ∧ (∀ l o, Meets e ops l o → score ≤ margin l o) ∧
      (score = 1 ∨ ∃ l o, Meets e ops l o ∧ score = margin l o) := by
  obtain ⟨e, hget, hj⟩ := select_judged turns hne
  obtain ⟨h1, h2, h3, h4, h5⟩ := points_holds (hs e hj.1) (ops := ops) holds_init
  simp only [false_or] at h1 h2 h4 h5
  have hev : evaluate (some es) turns ops = (if (points e ops ⟨true, 1, false⟩).checked
      then some ((points e ops ⟨true, 1, false⟩).valid, (points e ops ⟨true, 1, false⟩).worst)
      else some (true, 1)) := by
    cases es with
    | nil => exact absurd rfl hne
    | cons a r =>
      simp only [evaluate]
      rw [hget]
  by_cases hc : (points e ops ⟨true, 1, false⟩).checked = true
  · rw [if_pos hc] at hev
    refine ⟨e, _, _, hj, hev, h1, ?_, h3, ?_, ?_⟩
    · rcases h4 with h4 | ⟨l, o, _, h4⟩
      · rw [h4]; exact zero_le_one
      · rw [h4]; exact (headroom_range l o).1
    · intro l o hm
      rw [← headroom_eq_margin]; exact h2 l o hm
    · rcases h4 with h4 | ⟨l, o, hm, h4⟩
      · exact Or.inl h4
      · exact Or.inr ⟨l, o, hm, by rw [h4, headroom_eq_margin]⟩
  · rw [if_neg hc] at hev
    have hn : ¬ ∃ l o, Meets e ops l o := fun h => hc (h5.mpr h)
    refine ⟨e, true, 1, hj, hev, ?_, zero_le_one, le_rfl, ?_, Or.inl rfl⟩
    · simp only [true_iff]
      intro l o hm; exact absurd ⟨l, o, hm⟩ hn
    · intro l o hm; exact absurd ⟨l, o, hm⟩ hn

/-- Two windings, one entry; the second winding exceeds its own rated current. -/
example : evaluate (K := ℚ) (some [⟨none, some [4, 2], some 10, none, none⟩]) [10]
    [[⟨some 2, some 5, none, none⟩, ⟨some 3, none, none, none⟩]] = some (false, 0) := by decide +kernel

example : evaluate (K := ℚ) (some [⟨none, some [4, 2], some 10, none, some 100⟩]) [10]
    [[⟨some 2, some 5, none, some (-25)⟩, ⟨some 1, none, none, none⟩]] = some (true, 1 / 2) := by decide +kernel

/-- C16, what is not checked: a winding beyond the published list of two or more currents has no limit, however
large its current. -/
theorem winding_beyond_list_unchecked :
    evaluate (K := ℚ) (some [⟨none, some [4, 2], none, none, none⟩]) [10]
      [[⟨some 1, none, none, none⟩, ⟨some 1, none, none, none⟩, ⟨some 1000, none, none, none⟩]] =
      some (true, 1 / 2) := by decide +kernel

/-- C16, what fails: with a published limit that is not positive the part is rejected with the best score. -/
theorem rejected_with_best_score :
    evaluate (K := ℚ) (some [⟨none, some [0], none, none, none⟩]) [10] [[⟨some 1, none, none, none⟩]] =
      some (false, 1) := by decide +kernel

/-- C16, what fails: entries that match neither turns nor the smallest rated current are ignored, even when they
publish a saturation current that is exceeded. -/
theorem other_entries_ignored :
    evaluate (K := ℚ) (some [⟨none, some [4], none, none, none⟩, ⟨none, some [5], some 1, none, none⟩]) [10]
      [[⟨some 1, some 100, none, none⟩]] = some (true, 3 / 4) := by decide +kernel

end Verif.Datasheet
