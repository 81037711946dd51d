import Mathlib.Tactic.Linarith
import Mathlib.Tactic.FieldSimp
import Mathlib.Tactic.NormNum
import Mathlib.Tactic.IntervalCases
import Verif.Names.Lemmas
import Verif.Text.Props
import Verif.Wire.Label

/-!
# Properties of the label of a coating
-/

namespace Verif.Wire

open Verif.Names (decimal decimal_digits decimal_ne_nil)
open Verif.Text (IsSplit split_isSplit isSplit_unique)

set_option linter.unusedSimpArgs false

/-! ## Lemmas on texts -/

theorem has_cons (p : List Char) (x : Char) (s : List Char) : has p (x :: s) = (p.isPrefixOf (x :: s) || has p s) := by
  unfold has
  rw [Text.findSub]
  split_ifs with h
  · simp [h]
  · simp only [Bool.not_eq_true] at h
    simp [h]

theorem has_nil (p : List Char) (h : p ≠ []) : has p [] = false := by
  simp [has, Text.findSub, h]

theorem prefix_absent {p s : List Char} {c : Char} (hp : c ∈ p) (hs : c ∉ s) : p.isPrefixOf s = false := by
  rw [Bool.eq_false_iff]
  intro h
  exact hs ((List.isPrefixOf_iff_prefix.mp h).subset hp)

theorem has_absent {p : List Char} {c : Char} (hp : c ∈ p) : ∀ {s : List Char}, c ∉ s → has p s = false
  | [], _ => has_nil p (List.ne_nil_of_mem hp)
  | x :: s, hs => by
    rw [has_cons, prefix_absent hp hs, has_absent hp (fun h => hs (List.mem_cons_of_mem _ h)), Bool.or_false]

theorem prefix_separator {x : Char} (s : List Char) : ∀ (p b : List Char), x ∉ p → p.isPrefixOf (b ++ x :: s) = p.isPrefixOf b
  | [], b, _ => by simp
  | c :: p, [], h => by
    have : (c == x) = false := by simpa using fun e : c = x => h (e ▸ List.mem_cons_self)
    simp [List.isPrefixOf, this]
  | c :: p, d :: b, h => by
    simp only [List.cons_append, List.isPrefixOf]
    rw [prefix_separator s p b fun e => h (List.mem_cons_of_mem _ e)]

/-- A text without the separator is before it or after it. -/
theorem has_separator {p : List Char} {x : Char} (hp : p ≠ []) (hx : x ∉ p) (s : List Char) : ∀ a : List Char,
    has p (a ++ x :: s) = (has p a || has p s)
  | [] => by
    rw [List.nil_append, has_cons, has_nil p hp, Bool.false_or]
    have := prefix_separator s p [] hx
    rw [List.nil_append] at this
    rw [this]
    cases p with
    | nil => exact absurd rfl hp
    | cons c p => simp [List.isPrefixOf]
  | c :: a => by
    rw [List.cons_append, has_cons, has_separator hp hx s a, has_cons, Bool.or_assoc]
    congr 1
    exact prefix_separator s p (c :: a) hx

theorem has_infix (p a b : List Char) (hp : p ≠ []) : has p (a ++ p ++ b) = true := by
  unfold has
  by_contra h
  simp only [Bool.not_eq_true, Option.isSome_eq_false_iff, Option.isNone_iff_eq_none] at h
  exact Text.findSub_none _ _ h ⟨a, b, rfl⟩

theorem infix_absent {p s : List Char} {c : Char} (hp : c ∈ p) (hs : c ∉ s) : ¬ p <:+: s := fun h => hs (h.subset hp)

/-- A text cut in two at a delimiter. -/
theorem split_two {d a b : List Char} (hd : d ≠ []) (ha : ¬ d <:+: a ++ d.dropLast) (hb : ¬ d <:+: b) :
    Text.split (a ++ d ++ b) d = some [a, b] := by
  obtain ⟨toks, h1, h2⟩ := split_isSplit (a ++ d ++ b) d hd
  rw [h1, isSplit_unique d hd h2 (.cut a b [b] ha (.last b hb))]

theorem takeWhile_digits (l r : List Char) (hl : ∀ c ∈ l, c.isDigit = true) (hr : ∀ c ∈ r.head?, c.isDigit = false) :
    (l ++ r).takeWhile Char.isDigit = l := by
  induction l with
  | nil =>
    cases r with
    | nil => rfl
    | cons c r => simp [List.takeWhile, hr c (by simp)]
  | cons c l ih =>
    rw [List.cons_append, List.takeWhile_cons, if_pos (hl c List.mem_cons_self), ih fun c hc => hl c (List.mem_cons_of_mem _ hc)]

theorem ofDigitChars_decimal (n : ℕ) : Nat.ofDigitChars 10 (decimal n) 0 = n := by
  simp [decimal, Nat.ofDigitChars_ten_toDigits]

theorem readDecimal_whole (n : ℕ) : readDecimal (decimal n) = some (n : ℚ) := by
  have h : (decimal n).takeWhile Char.isDigit = decimal n := by
    have := takeWhile_digits (decimal n) [] (decimal_digits n) (by simp)
    rwa [List.append_nil] at this
  simp [readDecimal, h, decimal_ne_nil, ofDigitChars_decimal]

theorem decimal_one (n : ℕ) (h : n < 10) : (decimal n).length = 1 := by
  interval_cases n <;> decide

theorem readDecimal_tenth (n k : ℕ) (hk : k < 10) : readDecimal (decimal n ++ '.' :: decimal k) = some ((n : ℚ) + k / 10) := by
  have h : (decimal n ++ '.' :: decimal k).takeWhile Char.isDigit = decimal n :=
    takeWhile_digits _ _ (decimal_digits n) (by intro c hc; simp at hc; subst hc; decide)
  have h' : (decimal k).takeWhile Char.isDigit = decimal k := by
    have := takeWhile_digits (decimal k) [] (decimal_digits k) (by simp)
    rwa [List.append_nil] at this
  simp [readDecimal, h, h', decimal_ne_nil, ofDigitChars_decimal, decimal_one k hk]

theorem readWhole_decimal (n : ℕ) : readWhole (decimal n) = some n := by
  have h : (decimal n).takeWhile Char.isDigit = decimal n := by
    have := takeWhile_digits (decimal n) [] (decimal_digits n) (by simp)
    rwa [List.append_nil] at this
  simp [readWhole, h, decimal_ne_nil, ofDigitChars_decimal]

/-! ## C174 -/

/-- The coatings a label keeps: insulated one to three times, with no rating or one of 155 or 180 degrees and a breakdown voltage up to 1 kV
or of a whole number of hundreds of volts; enamelled of any grade; served once or twice; and bare. -/
def Kept (c : Coating) (volts : Option ℕ) : Prop :=
  c.voltage = volts.map (fun v : ℕ => (v : ℚ)) ∧ match c.kind with
    | some .insulated => c.layers ∈ [some 1, some 2, some 3] ∧ c.grade = none ∧ c.temperature ∈ [none, some 155, some 180] ∧
      ∀ v, volts = some v → v ≤ 1000 ∨ 100 ∣ v
    | some .enamelled => c.grade ≠ none ∧ c.layers = none ∧ c.temperature = none ∧ volts = none
    | some .served => c.layers ∈ [some 1, some 2] ∧ c.grade = none ∧ c.temperature = none ∧ volts = none
    | some .bare => c.layers = none ∧ c.grade = none ∧ c.temperature = none ∧ volts = none
    | none => False

/-- The digits, and the point, of a voltage. -/
def Digits (l : List Char) : Prop := ∀ c ∈ l, c.isDigit = true ∨ c = '.'

theorem voltage_tail {d u : List Char} (hd : Digits d) (hu : u = " V".toList ∨ u = " kV".toList) (c : Char)
    (hc : c ∈ ['a', 'U', 'S', 'D', 'T', 'E', ',']) : c ∉ " BV ".toList ++ d ++ u := by
  intro h
  simp only [List.mem_append] at h
  rcases h with (h | h) | h
  · revert hc h; revert c; decide
  · rcases hd c h with e | e
    · have := (by decide : ∀ c ∈ ['a', 'U', 'S', 'D', 'T', 'E', ','], c.isDigit = false) c hc
      rw [e] at this
      simp at this
    · subst e; revert hc; decide
  · rcases hu with rfl | rfl
    · revert hc h; revert c; decide
    · revert hc h; revert c; decide

/-- What is read of the kind and temperature is what stands before the voltage, and the voltage itself. -/
theorem decode_voltage {a d u : List Char} {v : ℚ} (hd : Digits d) (hu : u = " V".toList ∨ u = " kV".toList)
    (ha : ¬ ", BV ".toList <:+: a ++ ", BV".toList) (hr : readDecimal d = some v) (hE : has "Enamel".toList a = false) :
    decodeLabel (a ++ ", BV ".toList ++ (d ++ u)) = readRest a (let s := readTemperature a (readKind a ({}, false));
      ({ s.1 with voltage := some (if u = " V".toList then v else v * 1000) }, true)) := by
  have eq : a ++ ", BV ".toList ++ (d ++ u) = a ++ ',' :: (" BV ".toList ++ d ++ u) := by
    simp [List.append_assoc]
  have key : ∀ (p : List Char) (c : Char), p ≠ [] → ',' ∉ p → c ∈ ['a', 'U', 'S', 'D', 'T', 'E', ','] → c ∈ p →
      has p (a ++ ", BV ".toList ++ (d ++ u)) = has p a := by
    intro p c h1 h2 h3 h4
    rw [eq, has_separator h1 h2, has_absent h4 (voltage_tail hd hu c h3), Bool.or_false]
  have k1 := key "Bare".toList 'a' (by decide) (by decide) (by decide) (by decide)
  have k2 := key "Unserved".toList 'U' (by decide) (by decide) (by decide) (by decide)
  have k3 := key "SIW".toList 'S' (by decide) (by decide) (by decide) (by decide)
  have k4 := key "DIW".toList 'D' (by decide) (by decide) (by decide) (by decide)
  have k5 := key "TIW".toList 'T' (by decide) (by decide) (by decide) (by decide)
  have k6 := key "TR 155".toList 'T' (by decide) (by decide) (by decide) (by decide)
  have k7 := key "TR 180".toList 'T' (by decide) (by decide) (by decide) (by decide)
  have k8 := key "Enamel".toList 'E' (by decide) (by decide) (by decide) (by decide)
  have k9 := key "Single served".toList 'S' (by decide) (by decide) (by decide) (by decide)
  have k10 := key "Double served".toList 'D' (by decide) (by decide) (by decide) (by decide)
  have hsp : Text.split (a ++ ", BV ".toList ++ (d ++ u)) ", BV ".toList = some [a, d ++ u] := by
    apply split_two (by decide) (by simpa using ha)
    apply infix_absent (c := ',') (by decide)
    intro h
    exact voltage_tail hd hu ',' (by decide) (by rw [List.append_assoc]; exact List.mem_append_right _ h)
  have hbv : has ", BV ".toList (a ++ ", BV ".toList ++ (d ++ u)) = true := has_infix _ _ _ (by decide)
  have dabs : ∀ c : Char, c.isDigit = false → c ≠ '.' → c ∉ d := by
    intro c h1 h2 h
    rcases hd c h with e | e
    · rw [h1] at e; simp at e
    · exact h2 e
  have hkind : readKind (a ++ ", BV ".toList ++ (d ++ u)) ({}, false) = readKind a ({}, false) := by
    unfold readKind
    rw [k1, k2, k3, k4, k5]
  have htemp : ∀ s, readTemperature (a ++ ", BV ".toList ++ (d ++ u)) s = readTemperature a s := by
    intro s
    unfold readTemperature
    rw [k6, k7]
  have hrest : ∀ s, readRest (a ++ ", BV ".toList ++ (d ++ u)) s = readRest a s := by
    intro s
    unfold readRest
    rw [k8, k9, k10, hE]
    simp only [Bool.false_eq_true, if_false]
  unfold decodeLabel
  rw [hkind, htemp]
  generalize readTemperature a (readKind a ({}, false)) = s
  have hv : readVoltage (a ++ ", BV ".toList ++ (d ++ u)) s =
      some ({ s.1 with voltage := some (if u = " V".toList then v else v * 1000) }, true) := by
    unfold readVoltage
    rw [if_pos hbv, hsp]
    rcases hu with rfl | rfl
    · have n1 : has " kV".toList (d ++ " V".toList) = false := by
        apply has_absent (c := 'k') (by decide)
        intro h
        rcases List.mem_append.mp h with h | h
        · exact dabs 'k' (by decide) (by decide) h
        · revert h; decide
      have n2 : has " V".toList (d ++ " V".toList) = true := by
        have := has_infix " V".toList d [] (by decide)
        rwa [List.append_nil] at this
      have n3 : Text.split (d ++ " V".toList) " V".toList = some [d, []] := by
        have := split_two (d := " V".toList) (a := d) (b := []) (by decide)
          (infix_absent (c := 'V') (by decide) (by
            intro h
            rcases List.mem_append.mp h with h | h
            · exact dabs 'V' (by decide) (by decide) h
            · revert h; decide)) (infix_absent (c := 'V') (by decide) (by simp))
        rwa [List.append_nil] at this
      simp only [Option.bind_some, List.getElem?_cons_succ, List.getElem?_cons_zero, n1, n2, n3, hr, if_true, Option.map_some, Bool.false_eq_true, if_false]
    · have n1 : has " kV".toList (d ++ " kV".toList) = true := by
        have := has_infix " kV".toList d [] (by decide)
        rwa [List.append_nil] at this
      have n2 : has " V".toList (d ++ " kV".toList) = false := by
        have e : d ++ " kV".toList = d ++ 'k' :: ['V'] → False := by
          intro h
          have := congrArg List.length h
          simp at this
        have e2 : d ++ " kV".toList = (d ++ [' ']) ++ 'k' :: ['V'] := by simp
        rw [e2, has_separator (by decide) (by decide)]
        rw [has_absent (c := 'V') (by decide) (by
          intro h
          rcases List.mem_append.mp h with h | h
          · exact dabs 'V' (by decide) (by decide) h
          · revert h; decide)]
        decide
      have n3 : Text.split (d ++ " kV".toList) " kV".toList = some [d, []] := by
        have := split_two (d := " kV".toList) (a := d) (b := []) (by decide)
          (infix_absent (c := 'V') (by decide) (by
            intro h
            rcases List.mem_append.mp h with h | h
            · exact dabs 'V' (by decide) (by decide) h
            · revert h; decide)) (infix_absent (c := 'V') (by decide) (by simp))
        rwa [List.append_nil] at this
      have n4 : ¬ (" kV".toList = " V".toList) := by decide
      simp only [Option.bind_some, List.getElem?_cons_succ, List.getElem?_cons_zero, n1, n2, n3, hr, if_true, Option.map_some, Bool.false_eq_true, if_false, n4]
  rw [hv]
  exact hrest _

theorem decode_fiw (g : ℕ) : decodeLabel ("Enamel FIW".toList ++ decimal g) = .done (some { kind := some .enamelled, grade := some g }) := by
  have abs : ∀ c : Char, c ∈ ['B', 'U', 'S', 'D', 'T', ',', 'g', 'b'] → c ∉ "Enamel FIW".toList ++ decimal g := by
    intro c hc h
    rcases List.mem_append.mp h with h | h
    · exact (by decide : ∀ c ∈ ['B', 'U', 'S', 'D', 'T', ',', 'g', 'b'], c ∉ "Enamel FIW".toList) c hc h
    · have h1 := decimal_digits g c h
      have h2 := (by decide : ∀ c ∈ ['B', 'U', 'S', 'D', 'T', ',', 'g', 'b'], c.isDigit = false) c hc
      rw [h1] at h2
      simp at h2
  have k1 := has_absent (p := "Bare".toList) (c := 'B') (by decide) (abs 'B' (by decide))
  have k2 := has_absent (p := "Unserved".toList) (c := 'U') (by decide) (abs 'U' (by decide))
  have k3 := has_absent (p := "SIW".toList) (c := 'S') (by decide) (abs 'S' (by decide))
  have k4 := has_absent (p := "DIW".toList) (c := 'D') (by decide) (abs 'D' (by decide))
  have k5 := has_absent (p := "TIW".toList) (c := 'T') (by decide) (abs 'T' (by decide))
  have k6 := has_absent (p := "TR 155".toList) (c := 'T') (by decide) (abs 'T' (by decide))
  have k7 := has_absent (p := "TR 180".toList) (c := 'T') (by decide) (abs 'T' (by decide))
  have k8 := has_absent (p := ", BV ".toList) (c := ',') (by decide) (abs ',' (by decide))
  have k9 := has_absent (p := "Single served".toList) (c := 'S') (by decide) (abs 'S' (by decide))
  have k10 := has_absent (p := "Double served".toList) (c := 'D') (by decide) (abs 'D' (by decide))
  have g1 := has_absent (p := "grade 1".toList) (c := 'g') (by decide) (abs 'g' (by decide))
  have g2 := has_absent (p := "grade 2".toList) (c := 'g') (by decide) (abs 'g' (by decide))
  have g3 := has_absent (p := "grade 3".toList) (c := 'g') (by decide) (abs 'g' (by decide))
  have b1 := has_absent (p := "single build".toList) (c := 'b') (by decide) (abs 'b' (by decide))
  have b2 := has_absent (p := "heavy build".toList) (c := 'b') (by decide) (abs 'b' (by decide))
  have b3 := has_absent (p := "triple build".toList) (c := 'b') (by decide) (abs 'b' (by decide))
  have he : has "Enamel".toList ("Enamel FIW".toList ++ decimal g) = true := by
    have := has_infix "Enamel".toList [] (" FIW".toList ++ decimal g) (by decide)
    simpa using this
  have hsp : Text.split ("Enamel FIW".toList ++ decimal g) "FIW".toList = some ["Enamel ".toList, decimal g] := by
    have := split_two (d := "FIW".toList) (a := "Enamel ".toList) (b := decimal g) (by decide) (by decide) (by
      apply infix_absent (c := 'F') (by decide)
      intro h
      have := decimal_digits g 'F' h
      revert this; decide)
    simpa using this
  simp only [decodeLabel, readVoltage, readTemperature, readKind, readRest, k1, k2, k3, k4, k5, k6, k7, k8, k9, k10, g1, g2, g3, b1, b2, b3,
    he, hsp, Bool.or_self, Bool.false_eq_true, if_false, if_true, Option.bind_some, List.getElem?_cons_succ, List.getElem?_cons_zero,
    readWhole_decimal]

/-- The first part of the label of an insulated wire. -/
theorem insulated_parts (n : ℕ) (hn : n = 1 ∨ n = 2 ∨ n = 3) (t : Option ℕ) (ht : t ∈ [none, some 155, some 180]) :
    let a := layersText n ++ temperatureText t
    ¬ ", BV ".toList <:+: a ++ ", BV".toList ∧ has "Enamel".toList a = false ∧
      readTemperature a (readKind a ({}, false)) = (({ kind := some .insulated, layers := some n, temperature := t }, true) : Coating × Bool) ∧
      decodeLabel a = .done (some { kind := some .insulated, layers := some n, temperature := t }) ∧
      ∀ c, readRest a (c, true) = .done (some c) := by
  have rest : ∀ a : List Char, has "Enamel".toList a = false → has "Single served".toList a = false → has "Double served".toList a = false →
      ∀ c, readRest a (c, true) = .done (some c) := by
    intro a h1 h2 h3 c
    simp only [readRest, h1, h2, h3, Bool.false_eq_true, if_false, if_true]
  simp only [List.mem_cons, List.not_mem_nil, or_false] at ht
  rcases hn with rfl | rfl | rfl <;> rcases ht with rfl | rfl | rfl <;>
    exact ⟨by decide +kernel, by decide +kernel, by decide +kernel, by decide +kernel,
      rest _ (by decide +kernel) (by decide +kernel) (by decide +kernel)⟩

/-- C174 (partial: the coatings of `Kept`): the label of a coating is decoded into it. -/
theorem label_round_trip_partial (tenths : ℕ → ℕ) (ht : ∀ k, tenths (100 * k) = k) (w : Labelled) (c : Coating) (hc : w.coating = some c)
    (hk : Kept c w.volts) : ∃ label, encodeLabel tenths w = some label ∧ decodeLabel label = .done (some c) := by
  obtain ⟨isLitz, nema, coating, volts⟩ := w
  simp only at hc hk
  subst hc
  obtain ⟨kind, layers, grade, temperature, voltage⟩ := c
  obtain ⟨hv, hk⟩ := hk
  simp only at hv hk
  subst hv
  cases kind with
  | none => exact hk.elim
  | some k =>
    cases k with
    | bare =>
      obtain ⟨rfl, rfl, rfl, rfl⟩ := hk
      cases isLitz
      · exact ⟨"Bare".toList, rfl, by decide +kernel⟩
      · exact ⟨"Unserved".toList, rfl, by decide +kernel⟩
    | enamelled =>
      obtain ⟨hg, rfl, rfl, rfl⟩ := hk
      cases grade with
      | none => exact absurd rfl hg
      | some g =>
        refine ⟨_, rfl, ?_⟩
        by_cases h1 : g = 1
        · subst h1; cases nema <;> cases isLitz <;> decide +kernel
        by_cases h2 : g = 2
        · subst h2; cases nema <;> cases isLitz <;> decide +kernel
        by_cases h3 : g = 3
        · subst h3; cases nema <;> cases isLitz <;> decide +kernel
        simp only [gradeText, h1, h2, h3, if_false]
        exact decode_fiw g
    | served =>
      obtain ⟨hl, rfl, rfl, rfl⟩ := hk
      simp only [List.mem_cons, List.not_mem_nil, or_false] at hl
      rcases hl with rfl | rfl
      · exact ⟨"Single served".toList, rfl, by decide +kernel⟩
      · exact ⟨"Double served".toList, rfl, by decide +kernel⟩
    | insulated =>
      obtain ⟨hl, rfl, htemp, hvolts⟩ := hk
      obtain ⟨n, hn, rfl⟩ : ∃ n, (n = 1 ∨ n = 2 ∨ n = 3) ∧ layers = some n := by
        simp only [List.mem_cons, List.not_mem_nil, or_false] at hl
        rcases hl with h | h | h <;> exact ⟨_, by simp, h⟩
      obtain ⟨p1, p2, p3, p4, p5⟩ := insulated_parts n hn temperature htemp
      refine ⟨_, rfl, ?_⟩
      cases volts with
      | none =>
        simp only [voltageText, List.append_nil, Option.map_none]
        exact p4
      | some v =>
        by_cases h : 1000 < v
        · rcases hvolts v rfl with h' | ⟨k, rfl⟩
          · omega
          have hd : Digits (decimal (k / 10) ++ '.' :: decimal (k % 10)) := by
            intro x hx
            simp only [List.mem_append, List.mem_cons] at hx
            rcases hx with hx | hx | hx
            · exact Or.inl (decimal_digits _ x hx)
            · exact Or.inr hx
            · exact Or.inl (decimal_digits _ x hx)
          have hr : readDecimal (decimal (k / 10) ++ '.' :: decimal (k % 10)) = some ((k : ℚ) / 10) := by
            rw [readDecimal_tenth _ _ (Nat.mod_lt _ (by norm_num))]
            have : (k : ℚ) = 10 * ((k / 10 : ℕ) : ℚ) + ((k % 10 : ℕ) : ℚ) := by exact_mod_cast (Nat.div_add_mod k 10).symm
            congr 1
            rw [this]
            ring
          have := decode_voltage hd (Or.inr rfl) p1 hr p2
          simp only [p3, p5] at this
          simp only [voltageText, h, if_true, ht]
          rw [List.append_assoc ", BV ".toList, ← List.append_assoc _ ", BV ".toList, this]
          congr 3
          simp only [Option.map_some, Option.some.injEq]
          rw [if_neg (by decide)]
          push_cast
          ring
        · have hd : Digits (decimal v) := fun x hx => Or.inl (decimal_digits v x hx)
          have := decode_voltage hd (Or.inl rfl) p1 (readDecimal_whole v) p2
          simp only [p3, p5] at this
          simp only [voltageText, h, if_false]
          rw [List.append_assoc ", BV ".toList, ← List.append_assoc _ ", BV ".toList, this]
          simp only [if_true, Option.map_some]

/-- An insulated wire. -/
def insulatedWire (layers : ℕ) (temperature volts : Option ℕ) : Labelled where
  litz := false
  nema := false
  coating := some { kind := some .insulated, layers := some layers, temperature := temperature, voltage := volts.map fun v : ℕ => (v : ℚ) }
  volts := volts

/-- Volts to the nearest tenth of a kilovolt. -/
def nearestTenth (v : ℕ) : ℕ := (v + 50) / 100

example : (∀ k, nearestTenth (100 * k) = k) ∧
    encodeLabel nearestTenth (insulatedWire 3 (some 155) (some 5600)) = some "TIW, TR 155, BV 5.6 kV".toList := by
  constructor
  · intro k; unfold nearestTenth; omega
  · decide +kernel

/-- C174 (fails): ratings other than 155 and 180 degrees are in the label and are not decoded. -/
theorem label_temperature_lost : encodeLabel nearestTenth (insulatedWire 3 (some 130) none) = some "TIW, TR 130".toList ∧
    decodeLabel "TIW, TR 130".toList = .done (some { kind := some .insulated, layers := some 3 }) := by
  decide +kernel

/-- C174 (fails): a breakdown voltage above a kilovolt comes back rounded to hundreds of volts. -/
theorem label_voltage_rounded : encodeLabel nearestTenth (insulatedWire 1 none (some 5640)) = some "SIW, BV 5.6 kV".toList ∧
    decodeLabel "SIW, BV 5.6 kV".toList = .done (some { kind := some .insulated, layers := some 1, voltage := some 5600 }) := by
  decide +kernel

/-- C174 (fails): insulation of four layers has an empty label, which is not one of a coating. -/
theorem label_layers_lost (n : ℕ) (hn : n = 0 ∨ 3 < n) : encodeLabel nearestTenth (insulatedWire n none none) = some [] ∧
    decodeLabel [] = .done none := by
  refine ⟨?_, by decide +kernel⟩
  have h1 : n ≠ 1 := by omega
  have h2 : n ≠ 2 := by omega
  have h3 : n ≠ 3 := by omega
  simp [encodeLabel, insulatedWire, layersText, temperatureText, voltageText, h1, h2, h3]

/-- C174: no coating at all is labelled and decoded as a bare one. -/
theorem label_none (tenths : ℕ → ℕ) (w : Labelled) (h : w.coating = none) :
    encodeLabel tenths w = some "Bare".toList ∧ decodeLabel "Bare".toList = .done (some { kind := some .bare }) := by
  refine ⟨?_, by decide +kernel⟩
  simp [encodeLabel, h]

/-- C174 (fails): a label of enamel without a grade reads past the end of the pieces it is cut in. -/
theorem label_enamel_undefined : decodeLabel "Enamel".toList = .undefined := by decide +kernel

end Verif.Wire
