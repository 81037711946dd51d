import Verif.Datasheet.Model
import Mathlib.Tactic.Linarith

/-! # Lemmas about headrooms and the running verdict -/

set_option linter.unusedSectionVars false

namespace Verif.Datasheet

variable {K : Type} [Field K] [LinearOrder K] [IsStrictOrderedRing K]

theorem headroom_range (l o : K) : 0 ≤ headroom l o ∧ headroom l o ≤ 1 := by
  unfold headroom
  split
  · exact ⟨zero_le_one, le_rfl⟩
  · simp only
    split
    · exact ⟨le_rfl, zero_le_one⟩
    · split
      · exact ⟨zero_le_one, le_rfl⟩
      · exact ⟨not_lt.mp ‹_›, not_lt.mp ‹_›⟩

theorem headroom_antitone {l o o' : K} (h : o ≤ o') : headroom l o' ≤ headroom l o := by
  unfold headroom
  by_cases hl : l ≤ 0
  · rw [if_pos hl, if_pos hl]
  · rw [if_neg hl, if_neg hl]
    have hlp : 0 < l := not_le.mp hl
    have hx : (l - o') / l ≤ (l - o) / l := by
      rw [div_le_div_iff_of_pos_right hlp]; linarith
    simp only
    by_cases h1 : (l - o') / l < 0
    · rw [if_pos h1]
      split
      · exact le_rfl
      · split
        · exact zero_le_one
        · exact not_lt.mp ‹_›
    · rw [if_neg h1]
      have h1 := not_lt.mp h1
      by_cases h2 : 1 < (l - o') / l
      · rw [if_pos h2, if_neg (not_lt.mpr (le_trans h1 hx)), if_pos (lt_of_lt_of_le h2 hx)]
      · rw [if_neg h2, if_neg (not_lt.mpr (le_trans h1 hx))]
        split
        · exact not_lt.mp h2
        · exact hx

/-- The verdict after a set of checks. -/
def Holds (v : Verdict K) (P : K → K → Prop) : Prop :=
  (v.valid = true ↔ ∀ l o, P l o → o ≤ l) ∧
  (∀ l o, P l o → v.worst ≤ headroom l o) ∧ v.worst ≤ 1 ∧
  (v.worst = 1 ∨ ∃ l o, P l o ∧ v.worst = headroom l o) ∧
  (v.checked = true ↔ ∃ l o, P l o)

theorem holds_init : Holds (⟨true, 1, false⟩ : Verdict K) (fun _ _ => False) := by
  refine ⟨by simp, by simp, le_rfl, Or.inl rfl, by simp⟩

theorem holds_congr {v : Verdict K} {P Q : K → K → Prop} (h : Holds v P) (e : ∀ l o, P l o ↔ Q l o) :
    Holds v Q := by
  have : P = Q := by funext l o; exact propext (e l o)
  rw [← this]; exact h

theorem holds_check {v : Verdict K} {P : K → K → Prop} (h : Holds v P) (l o : K) :
    Holds (v.check l o) (fun a b => P a b ∨ (a = l ∧ b = o)) := by
  obtain ⟨h1, h2, h3, h4, h5⟩ := h
  refine ⟨?_, ?_, ?_, ?_, ?_⟩
  · simp only [Verdict.check]
    by_cases hc : l < o
    · rw [if_pos hc]
      simp only [Bool.false_eq_true, false_iff]
      intro hh
      exact absurd (hh l o (Or.inr ⟨rfl, rfl⟩)) (not_le.mpr hc)
    · rw [if_neg hc, h1]
      constructor
      · rintro hh a b (hp | ⟨rfl, rfl⟩)
        · exact hh a b hp
        · exact not_lt.mp hc
      · intro hh a b hp; exact hh a b (Or.inl hp)
  · rintro a b (hp | ⟨rfl, rfl⟩)
    · simp only [Verdict.check]
      split
      · exact le_trans (le_of_lt ‹_›) (h2 a b hp)
      · exact h2 a b hp
    · simp only [Verdict.check]
      split
      · exact le_rfl
      · exact not_lt.mp ‹_›
  · simp only [Verdict.check]
    split
    · exact (headroom_range _ _).2
    · exact h3
  · simp only [Verdict.check]
    split
    · exact Or.inr ⟨l, o, Or.inr ⟨rfl, rfl⟩, rfl⟩
    · rcases h4 with h4 | ⟨a, b, hp, h4⟩
      · exact Or.inl h4
      · exact Or.inr ⟨a, b, Or.inl hp, h4⟩
  · simp only [Verdict.check, true_iff]
    exact ⟨l, o, Or.inr ⟨rfl, rfl⟩⟩

theorem holds_check? {v : Verdict K} {P : K → K → Prop} (h : Holds v P) (l o : Option K) :
    Holds (v.check? l o) (fun a b => P a b ∨ (l = some a ∧ o = some b)) := by
  cases l with
  | none => exact holds_congr h (by simp)
  | some l =>
    cases o with
    | none => exact holds_congr h (by simp)
    | some o =>
      refine holds_congr (holds_check h l o) (fun a b => ?_)
      simp only [Option.some.injEq]
      constructor
      · rintro (hp | ⟨rfl, rfl⟩)
        · exact Or.inl hp
        · exact Or.inr ⟨rfl, rfl⟩
      · rintro (hp | ⟨rfl, rfl⟩)
        · exact Or.inl hp
        · exact Or.inr ⟨rfl, rfl⟩

/-- Checks done for winding `i` other than saturation. -/
def WindingCheck (e : Entry K) (i : Nat) (x : Excitation K) (l o : K) : Prop :=
  (ratedLimit e.ratedCurrents i = some l ∧ x.currentRms = some o) ∨
  (e.voltageAc = some l ∧ x.voltageRms = some o) ∨
  (e.voltageDc = some l ∧ x.voltageOffset.map abs = some o)

theorem windings_verdict {e : Entry K} {xs : List (Excitation K)} {i : Nat} {v : Verdict K} {pk : Option K}
    {P : K → K → Prop} (h : Holds v P) :
    Holds (windings e xs i v pk).1
      (fun l o => P l o ∨ ∃ (k : Nat) (x : Excitation K), xs[k]? = some x ∧ WindingCheck e (i + k) x l o) := by
  induction xs generalizing i v pk P with
  | nil => exact holds_congr h (by simp)
  | cons x xs ih =>
    simp only [windings]
    refine holds_congr (ih (holds_check? (holds_check? (holds_check? h _ _) _ _) _ _)) (fun l o => ?_)
    constructor
    · rintro ((((hp | hc) | hc) | hc) | ⟨k, y, hy, hc⟩)
      · exact Or.inl hp
      · exact Or.inr ⟨0, x, rfl, Or.inl (by simpa using hc)⟩
      · exact Or.inr ⟨0, x, rfl, Or.inr (Or.inl hc)⟩
      · exact Or.inr ⟨0, x, rfl, Or.inr (Or.inr hc)⟩
      · exact Or.inr ⟨k + 1, y, by simpa using hy, by rw [show i + (k + 1) = i + 1 + k by omega]; exact hc⟩
    · rintro (hp | ⟨k, y, hy, hc⟩)
      · exact Or.inl (Or.inl (Or.inl (Or.inl hp)))
      · cases k with
        | zero =>
          simp only [List.getElem?_cons_zero, Option.some.injEq] at hy
          subst hy
          rcases hc with hc | hc | hc
          · exact Or.inl (Or.inl (Or.inl (Or.inr (by simpa using hc))))
          · exact Or.inl (Or.inl (Or.inr hc))
          · exact Or.inl (Or.inr hc)
        | succ k =>
          exact Or.inr ⟨k, y, by simpa using hy, by rw [show i + 1 + k = i + (k + 1) by omega]; exact hc⟩

/-- The collected peak. -/
theorem windings_peak {e : Entry K} {s : K} (hs : e.saturationPeak = some s) {xs : List (Excitation K)} {i : Nat}
    {v : Verdict K} {pk : Option K} (hpk : ∀ q, pk = some q → 0 ≤ q) :
    (∀ q, (windings e xs i v pk).2 = some q →
      0 ≤ q ∧ (∀ q0, pk = some q0 → q0 ≤ q) ∧ (∀ x ∈ xs, ∀ p, x.currentPeak = some p → p ≤ q) ∧
        (q = 0 ∨ pk = some q ∨ ∃ x ∈ xs, x.currentPeak = some q)) ∧
    ((windings e xs i v pk).2 = none ↔ pk = none ∧ ∀ x ∈ xs, x.currentPeak = none) := by
  induction xs generalizing i v pk with
  | nil =>
    simp only [windings]
    refine ⟨fun q hq => ⟨hpk q hq, fun q0 h0 => ?_, by simp, Or.inr (Or.inl hq)⟩, by simp⟩
    rw [hq] at h0; cases h0; exact le_rfl
  | cons x xs ih =>
    simp only [windings]
    cases hx : x.currentPeak with
    | none =>
      simp only [hs, hx]
      obtain ⟨i1, i2⟩ := @ih (i + 1) (((v.check? (ratedLimit e.ratedCurrents i) x.currentRms).check? e.voltageAc
        x.voltageRms).check? e.voltageDc (x.voltageOffset.map abs)) pk hpk
      refine ⟨fun q hq => ?_, ?_⟩
      · obtain ⟨a, b, c, d⟩ := i1 q hq
        refine ⟨a, b, fun y hy p hp => ?_, ?_⟩
        · rcases List.mem_cons.mp hy with rfl | hy
          · rw [hx] at hp; cases hp
          · exact c y hy p hp
        · rcases d with d | d | ⟨y, hy, d⟩
          · exact Or.inl d
          · exact Or.inr (Or.inl d)
          · exact Or.inr (Or.inr ⟨y, List.mem_cons_of_mem _ hy, d⟩)
      · rw [i2]
        constructor
        · rintro ⟨a, b⟩
          refine ⟨a, fun y hy => ?_⟩
          rcases List.mem_cons.mp hy with rfl | hy
          · exact hx
          · exact b y hy
        · rintro ⟨a, b⟩
          exact ⟨a, fun y hy => b y (List.mem_cons_of_mem _ hy)⟩
    | some p =>
      simp only [hs, hx]
      generalize hold : peakSoFar pk = old
      have old0 : 0 ≤ old := by
        cases hp : pk with
        | none => rw [hp] at hold; rw [← hold]; exact le_rfl
        | some q => rw [hp] at hold; rw [← hold]; exact hpk q hp
      have oldpk : ∀ q0, pk = some q0 → q0 = old := by
        intro q0 h0; rw [h0] at hold; exact hold
      have new0 : 0 ≤ (if old < p then p else old) := by
        split
        · exact le_trans old0 (le_of_lt ‹_›)
        · exact old0
      have newp : p ≤ (if old < p then p else old) := by
        split
        · exact le_rfl
        · exact not_lt.mp ‹_›
      have newo : old ≤ (if old < p then p else old) := by
        split
        · exact le_of_lt ‹_›
        · exact le_rfl
      obtain ⟨i1, i2⟩ := @ih (i + 1) (((v.check? (ratedLimit e.ratedCurrents i) x.currentRms).check? e.voltageAc
        x.voltageRms).check? e.voltageDc (x.voltageOffset.map abs)) (some (if old < p then p else old))
        (by intro q hq; cases hq; exact new0)
      refine ⟨fun q hq => ?_, ?_⟩
      · obtain ⟨a, b, c, d⟩ := i1 q hq
        have hb := b _ rfl
        refine ⟨a, fun q0 h0 => ?_, fun y hy p' hp' => ?_, ?_⟩
        · rw [oldpk q0 h0]; exact le_trans newo hb
        · rcases List.mem_cons.mp hy with rfl | hy
          · rw [hx] at hp'; cases hp'; exact le_trans newp hb
          · exact c y hy p' hp'
        · rcases d with d | d | ⟨y, hy, d⟩
          · exact Or.inl d
          · simp only [Option.some.injEq] at d
            by_cases hc : old < p
            · rw [if_pos hc] at d
              exact Or.inr (Or.inr ⟨x, List.mem_cons_self, by rw [hx, d]⟩)
            · rw [if_neg hc] at d
              cases hp : pk with
              | none => rw [hp] at hold; left; rw [← d, ← hold]; rfl
              | some q1 =>
                right; left
                rw [oldpk q1 hp, d]
          · exact Or.inr (Or.inr ⟨y, List.mem_cons_of_mem _ hy, d⟩)
      · rw [i2]
        constructor
        · rintro ⟨a, _⟩; cases a
        · rintro ⟨_, b⟩
          have := b x List.mem_cons_self
          rw [hx] at this; cases this

/-- Without a published saturation current no peak is collected. -/
theorem windings_peak_none {e : Entry K} (hs : e.saturationPeak = none) (xs : List (Excitation K)) (i : Nat)
    (v : Verdict K) : (windings e xs i v none).2 = none := by
  induction xs generalizing i v with
  | nil => rfl
  | cons x xs ih => simp only [windings, hs]; exact ih _ _

theorem minOf_le (m : K) (l : List K) : minOf m l ≤ m ∧ (∀ x ∈ l, minOf m l ≤ x) ∧ minOf m l ∈ m :: l := by
  induction l generalizing m with
  | nil => simp [minOf]
  | cons a l ih =>
    simp only [minOf]
    obtain ⟨h1, h2, h3⟩ := ih (if a < m then a else m)
    by_cases hc : a < m
    · simp only [if_pos hc] at h1 h2 h3 ⊢
      refine ⟨le_trans h1 hc.le, fun x hx => ?_, List.mem_cons_of_mem _ h3⟩
      rcases List.mem_cons.mp hx with rfl | hx
      · exact h1
      · exact h2 x hx
    · simp only [if_neg hc] at h1 h2 h3 ⊢
      refine ⟨h1, fun x hx => ?_, ?_⟩
      · rcases List.mem_cons.mp hx with rfl | hx
        · exact le_trans h1 (not_lt.mp hc)
        · exact h2 x hx
      · rcases List.mem_cons.mp h3 with h3 | h3
        · rw [h3]; exact List.mem_cons_self
        · exact List.mem_cons_of_mem _ (List.mem_cons_of_mem _ h3)

theorem matchTurns_some {t : K} {es : List (Entry K)} {i k : Nat} (h : matchTurns t es i = some k) :
    ∃ (j : Nat) (e : Entry K) (n : K), k = i + j ∧ es[j]? = some e ∧ e.turns = some n ∧ |n - t| < 1 / 2 ∧
      ∀ e' ∈ es.take j, ∀ n', e'.turns = some n' → ¬ |n' - t| < 1 / 2 := by
  induction es generalizing i with
  | nil => cases h
  | cons e es ih =>
    have next : (∀ n', e.turns = some n' → ¬ |n' - t| < 1 / 2) → matchTurns t es (i + 1) = some k →
        ∃ (j : Nat) (e' : Entry K) (n : K), k = i + j ∧
        (e :: es)[j]? = some e' ∧ e'.turns = some n ∧ |n - t| < 1 / 2 ∧
        ∀ e' ∈ (e :: es).take j, ∀ n', e'.turns = some n' → ¬ |n' - t| < 1 / 2 := by
      intro he h
      obtain ⟨j, e', n, h1, h2, h3, h4, h5⟩ := ih h
      refine ⟨j + 1, e', n, by omega, by simpa using h2, h3, h4, fun x hx => ?_⟩
      rw [List.take_succ_cons] at hx
      rcases List.mem_cons.mp hx with rfl | hx
      · exact he
      · exact h5 x hx
    simp only [matchTurns] at h
    cases ht : e.turns with
    | none => rw [ht] at h; exact next (by intro n' hn'; rw [ht] at hn'; cases hn') h
    | some n =>
      rw [ht] at h
      simp only at h
      by_cases hc : |n - t| < 1 / 2
      · rw [if_pos hc] at h; cases h
        exact ⟨0, e, n, by omega, rfl, ht, hc, by simp⟩
      · rw [if_neg hc] at h
        exact next (by intro n' hn'; rw [ht] at hn'; cases hn'; exact hc) h

theorem matchTurns_none {t : K} {es : List (Entry K)} {i : Nat} (h : matchTurns t es i = none) :
    ∀ e ∈ es, ∀ n, e.turns = some n → ¬ |n - t| < 1 / 2 := by
  induction es generalizing i with
  | nil => simp
  | cons e es ih =>
    simp only [matchTurns] at h
    intro x hx n hn
    cases ht : e.turns with
    | none =>
      rw [ht] at h
      rcases List.mem_cons.mp hx with rfl | hx
      · rw [ht] at hn; cases hn
      · exact ih h x hx n hn
    | some m =>
      rw [ht] at h
      simp only at h
      by_cases hc : |m - t| < 1 / 2
      · rw [if_pos hc] at h; cases h
      · rw [if_neg hc] at h
        rcases List.mem_cons.mp hx with rfl | hx
        · rw [ht] at hn; cases hn; exact hc
        · exact ih h x hx n hn

theorem conservative_spec {es : List (Entry K)} {pre : List (Entry K)} {best : Option (Nat × K)}
    (hb : match best with
      | none => ∀ e ∈ pre, smallestRated e = none
      | some (j, b) => (∃ e, pre[j]? = some e ∧ smallestRated e = some b) ∧
          ∀ e ∈ pre, ∀ s, smallestRated e = some s → b ≤ s) :
    let r := conservative es pre.length best
    ((∀ e ∈ pre ++ es, smallestRated e = none) ∧ r = 0) ∨
    ∃ e b, (pre ++ es)[r]? = some e ∧ smallestRated e = some b ∧
      ∀ e' ∈ pre ++ es, ∀ s, smallestRated e' = some s → b ≤ s := by
  induction es generalizing pre best with
  | nil =>
    simp only [conservative, List.append_nil]
    cases best with
    | none => exact Or.inl ⟨hb, rfl⟩
    | some jb =>
      obtain ⟨j, b⟩ := jb
      obtain ⟨⟨e, h1, h2⟩, h3⟩ := hb
      exact Or.inr ⟨e, b, h1, h2, h3⟩
  | cons e es ih =>
    have len : (pre ++ [e]).length = pre.length + 1 := by simp
    have app : pre ++ e :: es = (pre ++ [e]) ++ es := by simp
    have getold : ∀ (j : Nat) (x : Entry K), pre[j]? = some x → (pre ++ [e])[j]? = some x := by
      intro j x hx
      rw [List.getElem?_append_left (List.getElem?_eq_some_iff.mp hx).1]; exact hx
    have getnew : (pre ++ [e])[pre.length]? = some e := by simp
    simp only [conservative]
    rw [app]
    cases hs : smallestRated e with
    | none =>
      simp only
      rw [← len]
      apply ih
      cases best with
      | none =>
        intro x hx
        rcases List.mem_append.mp hx with hx | hx
        · exact hb x hx
        · rw [List.mem_singleton.mp hx]; exact hs
      | some jb =>
        obtain ⟨j, b⟩ := jb
        obtain ⟨⟨x, h1, h2⟩, h3⟩ := hb
        refine ⟨⟨x, getold j x h1, h2⟩, fun y hy s hsy => ?_⟩
        rcases List.mem_append.mp hy with hy | hy
        · exact h3 y hy s hsy
        · rw [List.mem_singleton.mp hy, hs] at hsy; cases hsy
    | some s =>
      simp only
      cases best with
      | none =>
        simp only
        rw [← len]
        apply ih
        refine ⟨⟨e, getnew, hs⟩, fun y hy s' hsy => ?_⟩
        rcases List.mem_append.mp hy with hy | hy
        · rw [hb y hy] at hsy; cases hsy
        · rw [List.mem_singleton.mp hy, hs] at hsy; cases hsy; exact le_rfl
      | some jb =>
        obtain ⟨j, b⟩ := jb
        obtain ⟨⟨x, h1, h2⟩, h3⟩ := hb
        simp only
        by_cases hc : s < b
        · rw [if_pos hc, ← len]
          apply ih
          refine ⟨⟨e, getnew, hs⟩, fun y hy s' hsy => ?_⟩
          rcases List.mem_append.mp hy with hy | hy
          · exact le_trans hc.le (h3 y hy s' hsy)
          · rw [List.mem_singleton.mp hy, hs] at hsy; cases hsy; exact le_rfl
        · rw [if_neg hc, ← len]
          apply ih
          refine ⟨⟨x, getold j x h1, h2⟩, fun y hy s' hsy => ?_⟩
          rcases List.mem_append.mp hy with hy | hy
          · exact h3 y hy s' hsy
          · rw [List.mem_singleton.mp hy, hs] at hsy; cases hsy; exact not_lt.mp hc

end Verif.Datasheet
