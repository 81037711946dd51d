import Verif.Reader.Model
import Mathlib.Algebra.Order.Field.Rat
import Mathlib.Tactic.Ring
import Mathlib.Tactic.FieldSimp
import Mathlib.Tactic.Linarith

/-!
# The kind of a column

Properties C282 and C285.
-/

set_option linter.unusedSimpArgs false
set_option linter.unusedVariables false
set_option linter.unusedSectionVars false

namespace Verif.Reader

/-! ## By its name -/

theorem occurs_iff (d s : Text) : occurs d s = true ↔ d <:+: s := by
  induction s with
  | nil => simp [occurs]
  | cons c r ih =>
    rw [occurs, Bool.or_eq_true, ih, List.isPrefixOf_iff_prefix, List.infix_cons_iff]

/-- A letter stands at the start of a word of a name, and is not followed by a small letter. -/
def StartsWord (letter : Char) (name : Text) : Prop :=
  ∃ before after, name = before ++ letter :: after ∧ (∀ b, before.getLast? = some b → b.isAlphanum = false ∧ b ≠ '_') ∧
    (∀ a, after.head? = some a → a.isLower = false)

theorem atWord_cons (letter : Char) (before : Option Char) (c : Char) (r : Text) :
    atWord [letter] before (c :: r) = (([letter].isPrefixOf (c :: r) &&
      (match before with | none => true | some b => !b.isAlphanum && b != '_') &&
      (match r.head? with | some next => !(letter.isUpper && next.isLower) | none => true)) || atWord [letter] (some c) r) := by
  rcases r with _ | ⟨d, r⟩ <;> rfl

theorem atWord_iff (letter : Char) (hup : letter.isUpper = true) (s : Text) (before : Option Char) :
    atWord [letter] before s = true ↔ ∃ x after, s = x ++ letter :: after ∧
      (∀ b, (before.toList ++ x).getLast? = some b → b.isAlphanum = false ∧ b ≠ '_') ∧ (∀ a, after.head? = some a → a.isLower = false) := by
  induction s generalizing before with
  | nil => simp [atWord]
  | cons c r ih =>
    rw [atWord_cons, Bool.or_eq_true, ih]
    constructor
    · rintro (h | ⟨x, after, rfl, hb, ha⟩)
      · simp only [Bool.and_eq_true, List.isPrefixOf, List.length_cons, List.length_nil, List.drop_succ_cons, List.drop_zero,
          Bool.and_true, beq_iff_eq] at h
        obtain ⟨⟨rfl, hb⟩, ha⟩ := h
        refine ⟨[], r, rfl, ?_, ?_⟩
        · rintro b h; rcases before with _ | b'
          · simp at h
          · simp at h; subst h; simpa using hb
        · intro a h; rcases r with _ | ⟨n, r⟩
          · simp at h
          · simp at h; subst h; simpa [hup] using ha
      · refine ⟨c :: x, after, rfl, fun b h => hb b ?_, ha⟩
        rw [show before.toList ++ c :: x = before.toList ++ (c :: x) from rfl, List.getLast?_append] at h
        have : (some c).toList ++ x = c :: x := rfl
        rw [this]
        rw [List.getLast?_eq_getLast_of_ne_nil (by simp : c :: x ≠ [])] at h ⊢
        simpa using h
    · rintro ⟨x, after, he, hb, ha⟩
      rcases x with _ | ⟨c', x⟩
      · left
        simp only [List.nil_append, List.cons.injEq] at he
        obtain ⟨rfl, rfl⟩ := he
        simp only [Bool.and_eq_true, List.isPrefixOf, List.length_cons, List.length_nil, List.drop_succ_cons, List.drop_zero,
          Bool.and_true, beq_iff_eq, beq_self_eq_true, true_and]
        constructor
        · rcases before with _ | b
          · rfl
          · have := hb b (by simp); simp [this.1, this.2]
        · rcases r with _ | ⟨n, r⟩
          · rfl
          · have := ha n rfl; simp [this]
      · right
        simp only [List.cons_append, List.cons.injEq] at he
        obtain ⟨rfl, rfl⟩ := he
        refine ⟨x, after, rfl, fun b h => hb b ?_, ha⟩
        have : (some c).toList ++ x = c :: x := rfl
        rw [this] at h
        rw [List.getLast?_append]
        rw [List.getLast?_eq_getLast_of_ne_nil (by simp : c :: x ≠ [])] at h ⊢
        simpa using h

/-- A name has one of some words in it. -/
def Has (words : List Text) (name : Text) : Prop := ∃ d ∈ words, d <:+: name

/-- What a name says of a column: the first that holds, in this order. -/
inductive Says (name : Text) : Option DataType → Prop
  | time : Has timeAliases name → Says name (some .time)
  | magnetizing : ¬ Has timeAliases name → Has magnetizingAliases name → Says name (some .magnetizing)
  | current : ¬ Has timeAliases name → ¬ Has magnetizingAliases name → (Has currentAliases name ∨
      ¬ Has voltageAliases name ∧ StartsWord 'I' name) → Says name (some .current)
  | voltage : ¬ Has timeAliases name → ¬ Has magnetizingAliases name → ¬ Has currentAliases name → (Has voltageAliases name ∨
      ¬ StartsWord 'I' name ∧ StartsWord 'V' name) → Says name (some .voltage)
  | nothing : ¬ Has timeAliases name → ¬ Has magnetizingAliases name → ¬ Has currentAliases name → ¬ Has voltageAliases name →
      ¬ StartsWord 'I' name → ¬ StartsWord 'V' name → Says name none

theorem any_occurs (words : List Text) (name : Text) : (words.any (occurs · name)) = true ↔ Has words name := by
  simp [Has, List.any_eq_true, occurs_iff]

theorem atWord_starts (letter : Char) (hup : letter.isUpper = true) (name : Text) :
    atWord [letter] none name = true ↔ StartsWord letter name := by
  rw [atWord_iff letter hup]; simp [StartsWord]

theorem says_of (name : Text) : Says name (kindByName name) := by
  unfold kindByName
  split_ifs with h1 h2 h3 h4 h5 h6 <;> simp only [any_occurs, atWord_starts _ (by decide : ('I' : Char).isUpper = true),
    atWord_starts _ (by decide : ('V' : Char).isUpper = true)] at *
  · exact .time h1
  · exact .magnetizing h1 h2
  · exact .current h1 h2 (.inl h3)
  · exact .voltage h1 h2 h3 (.inl h4)
  · exact .current h1 h2 (.inr ⟨h4, h5⟩)
  · exact .voltage h1 h2 h3 (.inr ⟨h5, h6⟩)
  · exact .nothing h1 h2 h3 h4 h5 h6

theorem of_says {name : Text} {k : Option DataType} (h : Says name k) : kindByName name = k := by
  have hI := atWord_starts 'I' (by decide) name
  have hV := atWord_starts 'V' (by decide) name
  unfold kindByName
  cases h with
  | time h => rw [if_pos ((any_occurs _ _).2 h)]
  | magnetizing h1 h => rw [if_neg (fun c => h1 ((any_occurs _ _).1 c)), if_pos ((any_occurs _ _).2 h)]
  | current h1 h2 h =>
    rw [if_neg (fun c => h1 ((any_occurs _ _).1 c)), if_neg (fun c => h2 ((any_occurs _ _).1 c))]
    rcases h with h | ⟨h4, h⟩
    · rw [if_pos ((any_occurs _ _).2 h)]
    · rw [if_neg (show ¬ voltageAliases.any (occurs · name) = true from fun c => h4 ((any_occurs _ _).1 c)), if_pos (hI.2 h)]
      split_ifs <;> rfl
  | voltage h1 h2 h3 h =>
    rw [if_neg (fun c => h1 ((any_occurs _ _).1 c)), if_neg (fun c => h2 ((any_occurs _ _).1 c)), if_neg (fun c => h3 ((any_occurs _ _).1 c))]
    rcases h with h | ⟨h5, h⟩
    · rw [if_pos ((any_occurs _ _).2 h)]
    · rw [if_neg (show ¬ atWord ['I'] none name = true from fun c => h5 (hI.1 c)), if_pos (hV.2 h)]
      split_ifs <;> rfl
  | nothing h1 h2 h3 h4 h5 h6 =>
    rw [if_neg (fun c => h1 ((any_occurs _ _).1 c)), if_neg (fun c => h2 ((any_occurs _ _).1 c)), if_neg (fun c => h3 ((any_occurs _ _).1 c)),
      if_neg (fun c => h4 ((any_occurs _ _).1 c)), if_neg (fun c => h5 (hI.1 c)), if_neg (fun c => h6 (hV.1 c))]

/-- **C282.** The kind a name gives a column is that of the first group of words that it has: times, magnetizing currents, currents, voltages, then
words that start with `I`, then words that start with `V`. -/
theorem kind_by_name (name : Text) (k : Option DataType) : kindByName name = k ↔ Says name k :=
  ⟨fun h => h ▸ says_of name, of_says⟩

/-- The usual names of columns. -/
def usual : List (Text × DataType) :=
  ([("time", .time), ("Time", .time), ("TIME", .time), ("t [s]", .time), ("Imag", .magnetizing), ("magnetizing current", .magnetizing),
    ("Im", .magnetizing), ("Inductor current", .current), ("Current", .current), ("Ipri", .current), ("Isec", .current), ("I(L1)", .current),
    ("i(l1)", .current), ("I_1", .current), ("L1 [A]", .current), ("I1", .current), ("I", .current), ("Inductor voltage", .voltage),
    ("Voltage", .voltage), ("Vpri", .voltage), ("Vsec", .voltage), ("Vout", .voltage), ("V(n001)", .voltage), ("v(n001)", .voltage),
    ("V_1", .voltage), ("L1 [V]", .voltage), ("V1", .voltage), ("V", .voltage), ("winding V", .voltage)] : List (String × DataType)).map
    fun p => (p.1.toList, p.2)

/-- **C282.** The names in use. -/
theorem usual_names : ∀ p ∈ usual, kindByName p.1 = some p.2 := by decide +kernel

/-- **C282.** As words count anywhere in a name, and voltages come last, voltages are taken for currents and for times: the voltage of the node `mag`, the
`Voltage Is`olated and the voltage of the node `Timer`. -/
theorem voltage_mistaken_counterexample :
    kindByName "V(mag)".toList = some .magnetizing ∧ kindByName "Voltage Isolated".toList = some .current ∧
      kindByName "V(Timer)".toList = some .time ∧ kindByName "V(n001)".toList = some .voltage := by decide +kernel

/-- Case of a word that starts with a letter, and of one that goes on with a small letter. -/
example : StartsWord 'V' "out V1".toList ∧ atWord ['V'] none "Vault".toList = false :=
  ⟨(atWord_starts 'V' (by decide) _).1 (by decide +kernel), by decide +kernel⟩

/-! ## By its data -/

section
variable {K : Type} [Field K] [LinearOrder K] [IsStrictOrderedRing K]

theorem difference_scale {k : K} (hk : k ≠ 0) (a b : K) : difference (k * a) (k * b) = difference a b := by
  unfold difference
  have hk' : 0 < |k| := abs_pos.2 hk
  have e : max |k * b| |k * a| = |k| * max |b| |a| := by rw [abs_mul, abs_mul, mul_max_of_nonneg _ _ hk'.le]
  have e2 : |k * a - k * b| = |k| * |a - b| := by rw [← mul_sub, abs_mul]
  rw [e, e2]
  by_cases h : max |b| |a| = 0
  · have hb : b = 0 := abs_eq_zero.1 (le_antisymm (h ▸ le_max_left _ _) (abs_nonneg _))
    have ha : a = 0 := abs_eq_zero.1 (le_antisymm (h ▸ le_max_right _ _) (abs_nonneg _))
    subst hb; subst ha; simp
  · rw [if_neg h, if_neg (mul_ne_zero hk'.ne' h), mul_div_mul_left _ _ hk'.ne']

theorem countIn_scale {k : K} (hk : k ≠ 0) (limit : K) (d : List (K × Nat)) (x : K) :
    countIn limit (d.map fun p => (k * p.1, p.2)) (k * x) = (countIn limit d x).map fun p => (k * p.1, p.2) := by
  unfold countIn
  simp only [List.map_map, List.any_map, List.map_append, Function.comp_def, difference_scale hk]
  congr 1
  · refine List.map_congr_left fun p _ => ?_
    split_ifs <;> rfl
  · split_ifs <;> simp

theorem fold_scale {k : K} (hk : k ≠ 0) (limit : K) (data : List K) (d : List (K × Nat)) :
    (data.map (k * ·)).foldl (countIn limit) (d.map fun p => (k * p.1, p.2)) =
      (data.foldl (countIn limit) d).map fun p => (k * p.1, p.2) := by
  induction data generalizing d with
  | nil => rfl
  | cons x r ih => rw [List.map_cons, List.foldl_cons, countIn_scale hk, ih, List.foldl_cons]

/-- **C285.** Whether data can be a voltage does not depend on their unit or their sign. -/
theorem voltage_scale {k : K} (hk : k ≠ 0) (limit : K) (data : List K) :
    canBeVoltage limit (data.map (k * ·)) = canBeVoltage limit data := by
  unfold canBeVoltage
  have h := fold_scale hk limit data []
  rw [List.map_nil] at h
  simp only [List.length_map, h, List.filter_map, Function.comp_def]

theorem steps_map {f : K → K} {k : K} (hf : ∀ a b, f a - f b = k * (a - b)) (data : List K) :
    steps (data.map f) = (steps data).map (k * ·) := by
  unfold steps
  have : (data.map f).getLast?.toList ++ data.map f = (data.getLast?.toList ++ data).map f := by
    rw [List.map_append, List.getLast?_map]; congr 1; cases data.getLast? <;> rfl
  rw [this, List.zipWith_map, List.map_zipWith]
  congr 1; funext a b; exact hf a b

/-- **C285.** Whether data can be a current depends neither on their unit, their sign nor an offset. -/
theorem current_affine {k : K} (hk : k ≠ 0) (c limit : K) (data : List K) :
    canBeCurrent limit (data.map fun x => k * x + c) = canBeCurrent limit data := by
  unfold canBeCurrent
  rw [steps_map (k := k) (fun a b => by ring), voltage_scale hk]

theorem rolling_few {data : List K} (h : data.length < 384) : rolling data = data := by
  unfold rolling
  have hn : max 1 (data.length / 192) = 1 := by omega
  rw [hn]
  refine List.ext_getElem (by simp) fun i h1 h2 => ?_
  simp only [List.getElem_map, List.getElem_range, Nat.sub_self, List.take_zero, List.append_nil]
  rw [List.drop_eq_getElem_cons h2, List.take_succ_cons, List.take_zero]
  simp

/-- **C285.** A period of fewer than 384 samples is not filtered: its kind is decided by its own samples, however many attempts are left. -/
theorem few_samples {data : List K} (h : data.length < 384) (n : Nat) :
    kindByData (n + 1) data = if canBeCurrent (1 / 20) data then .current else if canBeVoltage (1 / 20) data then .voltage else .unknown := by
  induction n with
  | zero => rw [kindByData, kindByData]
  | succ n ih => rw [kindByData, rolling_few h, ih]; split_ifs <;> rfl

theorem rolling_length (data : List K) : (rolling data).length = data.length := by simp [rolling]

theorem rolling_scale (k : K) (data : List K) : rolling (data.map (k * ·)) = (rolling data).map (k * ·) := by
  unfold rolling
  simp only [List.length_map, ← List.map_take, ← List.map_append, ← List.map_drop, List.map_map]
  refine List.map_congr_left fun i _ => ?_
  simp only [Function.comp_apply]
  rw [show ∀ l : List K, (l.map (k * ·)).sum = k * l.sum from fun l => by
    induction l with
    | nil => simp
    | cons a r ih => simp [ih, mul_add]]
  rw [mul_div_assoc]

/-- **C285.** The kind recognised from the data is the same in any unit. -/
theorem kind_scale {k : K} (hk : k ≠ 0) (n : Nat) (data : List K) : kindByData n (data.map (k * ·)) = kindByData n data := by
  induction n generalizing data with
  | zero => rfl
  | succ n ih =>
    have hc := current_affine hk 0 (1 / 20) data
    simp only [add_zero] at hc
    rw [kindByData, kindByData, hc, voltage_scale hk, rolling_scale, ih]

end

/-- **C285.** A square wave of a few samples, whose name says nothing, is taken for a current: its edges are significant. -/
theorem square_counterexample : kindByData (K := ℚ) 100 [1, 1, -1, -1] = .current ∧ canBeVoltage (K := ℚ) (1 / 20) [1, 1, -1, -1] = true := by
  decide +kernel

/-- **C285.** And an offset matters to a voltage: this square wave of 1 V is one, and on top of 100 V it is not. -/
theorem voltage_offset_counterexample :
    canBeVoltage (K := ℚ) (1 / 20) [1, 1, 2, 2] = true ∧
      canBeVoltage (K := ℚ) (1 / 20) [101, 101, 102, 102] = false := by
  decide +kernel

end Verif.Reader
