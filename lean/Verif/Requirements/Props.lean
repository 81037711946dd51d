import Verif.Requirements.Model
import Mathlib.Tactic.Linarith
import Mathlib.Tactic.FieldSimp
import Mathlib.Tactic.NormNum
import Mathlib.Data.Rat.Floor

/-! # Properties C09 and C10: requirement windows and resolution of dimensional values -/

namespace Verif.Requirements

set_option linter.unusedSectionVars false
set_option linter.unusedSimpArgs false

variable {K : Type} [Field K] [LinearOrder K] [IsStrictOrderedRing K]

/-! ## C09 -/

/-- Specification: lower end of the window, with a flag telling whether the end is included. -/
def lowEnd (th : K) (r : Dim K) : Option (K × Bool) :=
  match r.minimum with
  | some mn => some (mn, (r.nominal.isSome || r.maximum.isSome))
  | none => match r.nominal, r.maximum with
    | some n, some _ => some (n, true)
    | some n, none => some (n - th * n, true)
    | none, _ => none

/-- Specification: upper end of the window, with a flag telling whether the end is included. -/
def highEnd (th : K) (r : Dim K) : Option (K × Bool) :=
  match r.maximum with
  | some mx => some (mx, (r.nominal.isSome || r.minimum.isSome))
  | none => match r.nominal, r.minimum with
    | some n, some _ => some (n, true)
    | some n, none => some (n + th * n, true)
    | none, _ => none

/-- Specification: the window has a field and `value` is between its ends. -/
def InWindow (th : K) (r : Dim K) (value : K) : Prop :=
  (r.nominal.isSome ∨ r.minimum.isSome ∨ r.maximum.isSome) ∧
  (∀ e, lowEnd th r = some e → if e.2 then e.1 ≤ value else e.1 < value) ∧
  (∀ e, highEnd th r = some e → if e.2 then value ≤ e.1 else value < e.1)

/-- Specification of an inconsistent window, as far as the code promises to detect it: maximum below the
minimum or the nominal; nominal below the minimum when there is no maximum. -/
def Inconsistent (r : Dim K) : Prop :=
  (∃ mn mx, r.minimum = some mn ∧ r.maximum = some mx ∧ mx < mn) ∨
  (∃ n mx, r.nominal = some n ∧ r.maximum = some mx ∧ mx < n) ∨
  (∃ n mn, r.nominal = some n ∧ r.minimum = some mn ∧ r.maximum = none ∧ n < mn)

/-- **C09**: the requirement throws exactly on inconsistent windows. -/
theorem check_throws_iff (th : K) (r : Dim K) (v : K) : check th r v = none ↔ Inconsistent r := by
  obtain ⟨n, mn, mx⟩ := r
  cases n <;> cases mn <;> cases mx <;> simp [check, Inconsistent]
  case some.some.some n mn mx =>
    constructor
    · intro h
      by_cases h1 : mx < mn
      · exact Or.inl h1
      · exact Or.inr (h (not_lt.mp h1))
    · rintro (h | h) h'
      · exact absurd h' (not_le.mpr h)
      · exact h

/-- **C09**: otherwise it accepts exactly the values in the window described by the fields present. -/
theorem check_accepts_iff (th : K) (r : Dim K) (v : K) (h : ¬ Inconsistent r) :
    check th r v = some true ↔ InWindow th r v := by
  have hne := mt (check_throws_iff th r v).mp h
  obtain ⟨n, mn, mx⟩ := r
  cases n <;> cases mn <;> cases mx <;>
    simp [check, InWindow, lowEnd, highEnd] at hne ⊢
  case some.none.none =>
    constructor
    · rintro ⟨a, b⟩; constructor <;> linarith
    · rintro ⟨a, b⟩; constructor <;> linarith
  all_goals simp_all

/-- **C09**: the accepted set is an interval. -/
theorem check_interval (th : K) (r : Dim K) (a b v : K) (ha : check th r a = some true)
    (hb : check th r b = some true) (h1 : a ≤ v) (h2 : v ≤ b) : check th r v = some true := by
  have hc : ¬ Inconsistent r := by
    rw [← check_throws_iff th r a, ha]; simp
  rw [check_accepts_iff th r _ hc] at ha hb ⊢
  refine ⟨ha.1, fun e he => ?_, fun e he => ?_⟩
  · have := ha.2.1 e he
    split at this <;> rename_i hf <;> simp only [hf, if_true, if_false]
    · exact le_trans this h1
    · exact lt_of_lt_of_le this h1
  · have := hb.2.2 e he
    split at this <;> rename_i hf <;> simp only [hf, if_true, if_false]
    · exact le_trans h2 this
    · exact lt_of_le_of_lt h2 this

/-- **C09**: a nominal-only requirement with non-negative nominal accepts its own nominal... -/
theorem check_nominal_self (th n : K) (hth : 0 ≤ th) (hn : 0 ≤ n) :
    check th ⟨some n, none, none⟩ n = some true := by
  have := mul_nonneg hn hth
  simp [check]; constructor <;> nlinarith

/-- ...but with a negative nominal the ±25 % window is empty: it does not even accept the nominal. -/
theorem check_negative_nominal_rejects_all (th n v : K) (hth : 0 < th) (hn : n < 0) :
    check th ⟨some n, none, none⟩ v = some false := by
  have : n * th < 0 := mul_neg_of_neg_of_pos hn hth
  simp [check]; intro h; nlinarith

/-- A one-sided requirement excludes its own bound. -/
example : check (1 / 4 : ℚ) ⟨none, some 3, none⟩ 3 = some false := by decide +kernel
/-- Consistent windows of each shape exist and are non-trivial. -/
example : check (1 / 4 : ℚ) ⟨some 4, none, none⟩ 5 = some true ∧ check (1 / 4 : ℚ) ⟨some 4, none, none⟩ 6 = some false
    ∧ ¬ Inconsistent (⟨some 4, some 1, some 9⟩ : Dim ℚ) := by
  refine ⟨by decide +kernel, by decide +kernel, ?_⟩
  rintro (⟨a, b, h1, h2, h3⟩ | ⟨a, b, h1, h2, h3⟩ | ⟨a, b, h1, h2, h3, h4⟩) <;> simp at h1 h2
  · subst h1 h2; norm_num at h3
  · subst h1 h2; norm_num at h3
  · simp at h3
/-- The code does not notice a nominal below the minimum when a maximum is given: such a requirement is
"consistent" and simply ignores the nominal. -/
theorem check_nominal_below_minimum_unnoticed :
    check (1 / 4 : ℚ) ⟨some 1, some 5, some 9⟩ 6 = some true := by decide +kernel

/-! ## C10 -/

/-- Specification: the fields that are present are in order. -/
def Ordered (d : Dim K) : Prop :=
  (∀ a b, d.minimum = some a → d.maximum = some b → a ≤ b) ∧
  (∀ a b, d.minimum = some a → d.nominal = some b → a ≤ b) ∧
  (∀ a b, d.nominal = some a → d.maximum = some b → a ≤ b)

/-- Specification: `x` respects every bound present. -/
def WithinBounds (d : Dim K) (x : K) : Prop :=
  (∀ a, d.minimum = some a → a ≤ x) ∧ (∀ b, d.maximum = some b → x ≤ b)

/-- **C10**: it throws exactly when the dimension has no field. -/
theorem resolve_none_iff (d : Dim K) (p : Pref) :
    resolve d p = none ↔ d.nominal = none ∧ d.minimum = none ∧ d.maximum = none := by
  obtain ⟨n, mn, mx⟩ := d
  cases p <;> cases n <;> cases mn <;> cases mx <;> simp [resolve]

/-- **C10**: the result lies within the bounds present. -/
theorem resolve_within (d : Dim K) (p : Pref) (x : K) (hd : Ordered d) (h : resolve d p = some x) :
    WithinBounds d x := by
  obtain ⟨n, mn, mx⟩ := d
  obtain ⟨h1, h2, h3⟩ := hd
  constructor
  · intro a ha
    cases p <;> cases n <;> cases mn <;> cases mx <;> simp [resolve] at h h1 h2 h3 ha <;> subst ha <;>
      (try subst h) <;> linarith
  · intro a ha
    cases p <;> cases n <;> cases mn <;> cases mx <;> simp [resolve] at h h1 h2 h3 ha <;> subst ha <;>
      (try subst h) <;> linarith

/-- **C10**: MINIMUM ≤ NOMINAL ≤ MAXIMUM. -/
theorem resolve_ordered (d : Dim K) (hd : Ordered d) (a b c : K) (ha : resolve d .minimum = some a)
    (hb : resolve d .nominal = some b) (hc : resolve d .maximum = some c) : a ≤ b ∧ b ≤ c := by
  obtain ⟨n, mn, mx⟩ := d
  obtain ⟨h1, h2, h3⟩ := hd
  cases n <;> cases mn <;> cases mx <;> simp [resolve] at ha hb hc h1 h2 h3 <;> subst ha <;> subst hb <;>
    subst hc <;> constructor <;> linarith

/-- **C10**: the value returned is a field of the dimension, or the middle of its two bounds. -/
theorem resolve_value (d : Dim K) (p : Pref) (x : K) (h : resolve d p = some x) :
    d.nominal = some x ∨ d.minimum = some x ∨ d.maximum = some x ∨
      ∃ a b, d.minimum = some a ∧ d.maximum = some b ∧ x = (a + b) / 2 := by
  obtain ⟨n, mn, mx⟩ := d
  cases p <;> cases n <;> cases mn <;> cases mx <;> simp [resolve] at h <;> simp [h]
  subst h; right; right; ring

/-- A plain number resolves to itself whatever the preference. -/
theorem resolve_plain (x : K) (p : Pref) : resolveDimension (.plain x) p = some x := rfl

/-- An ordered dimension with all three fields. -/
example : Ordered (⟨some 2, some 1, some 3⟩ : Dim ℚ) ∧ resolve (⟨none, some 1, some 3⟩ : Dim ℚ) .nominal = some 2 := by
  refine ⟨⟨?_, ?_, ?_⟩, by decide +kernel⟩ <;> intro a b h1 h2 <;> simp at h1 h2 <;> subst h1 h2 <;> norm_num

end Verif.Requirements
