import Verif.Reader.KindProps

/-!
# The winding of a column

Property C281.
-/

set_option linter.unusedSimpArgs false
set_option linter.unusedVariables false
set_option linter.unusedSectionVars false

namespace Verif.Reader

/-! ## The number in a name -/

theorem digitRuns_digits (ds : Text) (hd : ∀ c ∈ ds, c.isDigit = true) (run rest : Text) :
    digitRuns run (ds ++ rest) = digitRuns (run ++ ds) rest := by
  induction ds generalizing run with
  | nil => simp
  | cons c r ih =>
    rw [List.cons_append, digitRuns, if_pos (hd c (by simp)), ih (fun x hx => hd x (by simp [hx]))]
    simp

theorem digitRuns_none (s : Text) (hs : ∀ c ∈ s, c.isDigit = false) : digitRuns [] s = [] := by
  induction s with
  | nil => simp [digitRuns]
  | cons c r ih => rw [digitRuns, if_neg (by simp [hs c (by simp)]), if_pos rfl, ih (fun x hx => hs x (by simp [hx]))]

theorem digitRuns_others (s : Text) (hs : ∀ c ∈ s, c.isDigit = false) (run : Text) (hr : run ≠ []) : digitRuns run s = [run] := by
  rcases s with _ | ⟨c, r⟩
  · rw [digitRuns, if_neg hr]
  · rw [digitRuns, if_neg (by simp [hs c (by simp)]), if_neg hr, digitRuns_none r (fun x hx => hs x (by simp [hx]))]

theorem digitRuns_before (p : Text) (hp : ∀ c, p.getLast? = some c → c.isDigit = false) (run rest : Text) (hne : p ≠ [] ∨ run = []) :
    ∃ runs, digitRuns run (p ++ rest) = runs ++ digitRuns [] rest := by
  induction p generalizing run with
  | nil => exact ⟨[], by rcases hne with h | h <;> simp_all⟩
  | cons c r ih =>
    rcases r with _ | ⟨d, r⟩
    · have hc := hp c (by simp)
      rw [List.cons_append, digitRuns, if_neg (by simp [hc])]
      by_cases h : run = []
      · rw [if_pos h]; exact ⟨[], rfl⟩
      · rw [if_neg h]; exact ⟨[run], rfl⟩
    · have hp' : ∀ x, (d :: r).getLast? = some x → x.isDigit = false := fun x hx => hp x (by rw [List.getLast?_cons_cons]; exact hx)
      rw [List.cons_append, digitRuns]
      by_cases hc : c.isDigit = true
      · rw [if_pos hc]; exact ih hp' _ (.inl (by simp))
      · rw [if_neg hc]
        obtain ⟨runs, h⟩ := ih hp' [] (.inr rfl)
        by_cases hr : run = []
        · rw [if_pos hr]; exact ⟨runs, h⟩
        · rw [if_neg hr]; exact ⟨run :: runs, by rw [h]; rfl⟩

/-- **C281.** The number of a name with digits is that of its last digits. -/
theorem number_of_digits {before ds after : Text} (hb : ∀ c, before.getLast? = some c → c.isDigit = false) (hne : ds ≠ [])
    (hd : ∀ c ∈ ds, c.isDigit = true) (ha : ∀ c ∈ after, c.isDigit = false)
    (hall : ∀ run ∈ digitRuns [] (before ++ ds ++ after), natOf run ≤ 2147483647) :
    numberOf (before ++ ds ++ after) = some (natOf ds) := by
  obtain ⟨runs, h⟩ := digitRuns_before before hb [] (ds ++ after) (.inr rfl)
  rw [digitRuns_digits ds hd, List.nil_append, digitRuns_others after ha ds hne] at h
  have h' : digitRuns [] (before ++ ds ++ after) = runs ++ [ds] := by rw [List.append_assoc]; exact h
  unfold numberOf numbersIn
  have hbig : ((digitRuns [] (before ++ ds ++ after)).map natOf).any (· > 2147483647) = false := by
    rw [List.any_eq_false]
    intro n hn
    rw [List.mem_map] at hn
    obtain ⟨run, hrun, rfl⟩ := hn
    simpa using hall run hrun
  rw [h', List.map_append, List.map_cons, List.map_nil] at hbig
  simp only [h', hbig, Bool.false_eq_true, if_false, Option.map_some, List.map_append, List.map_cons, List.map_nil,
    List.getLast?_append, List.getLast?_singleton, Option.some_or]

/-- **C281.** Without digits it is that of the first of the labels that the name has, and zero when it has none. -/
theorem number_of_label {name : Text} (hs : ∀ c ∈ name, c.isDigit = false) :
    (∀ before l after, windingLabels = before ++ l :: after → l.1 <:+: name → (∀ x ∈ before, ¬ x.1 <:+: name) → numberOf name = some l.2) ∧
      ((∀ x ∈ windingLabels, ¬ x.1 <:+: name) → numberOf name = some 0) := by
  have h0 : numbersIn name = some [] := by simp [numbersIn, digitRuns_none name hs]
  constructor
  · intro before l after he hl hb
    have : windingLabels.find? (fun l => occurs l.1 name) = some l := by
      rw [List.find?_eq_some_iff_append]
      exact ⟨(occurs_iff _ _).2 hl, before, after, he, fun x hx => by
        have := hb x hx; rw [← occurs_iff] at this; simpa using this⟩
    simp [numberOf, h0, this]
  · intro h
    have : windingLabels.find? (fun l => occurs l.1 name) = none := by
      rw [List.find?_eq_none]; intro x hx; rw [occurs_iff]; exact h x hx
    simp [numberOf, h0, this]

/-- **C281.** The labels, by the names they are for. -/
theorem labels_named : numberOf "V_pri".toList = some 0 ∧ numberOf "V_sec".toList = some 1 ∧ numberOf "V_aux".toList = some 2 ∧
    numberOf "V_ter".toList = some 2 ∧ numberOf "I_trafo_HV".toList = some 0 ∧ numberOf "I_trafo_LV".toList = some 1 ∧
    numberOf "Ia".toList = some 0 ∧ numberOf "Ib".toList = some 1 ∧ numberOf "Ic".toList = some 2 ∧ numberOf "I".toList = some 0 := by
  decide +kernel

/-! ## Windings from numbers -/

theorem mem_insertNew (n m : Nat) (l : List Nat) : m ∈ insertNew n l ↔ m = n ∨ m ∈ l := by
  induction l with
  | nil => simp [insertNew]
  | cons a r ih =>
    rw [insertNew]
    split_ifs with h1 h2
    · simp
    · subst h2; simp
    · rw [List.mem_cons, ih, List.mem_cons]; tauto

theorem insertNew_sorted (n : Nat) (l : List Nat) (h : l.Pairwise (· < ·)) : (insertNew n l).Pairwise (· < ·) := by
  induction l with
  | nil => simp [insertNew]
  | cons a r ih =>
    have ha := (List.pairwise_cons.1 h).1
    have hr := (List.pairwise_cons.1 h).2
    rw [insertNew]
    split_ifs with h1 h2
    · rw [List.pairwise_cons]
      refine ⟨fun x hx => ?_, h⟩
      rcases List.mem_cons.1 hx with rfl | hx
      · exact h1
      · exact h1.trans (ha x hx)
    · exact h
    · rw [List.pairwise_cons]
      refine ⟨fun x hx => ?_, ih hr⟩
      rcases (mem_insertNew _ _ _).1 hx with rfl | hx
      · omega
      · exact ha x hx

theorem sortedDistinct_sorted (l : List Nat) : (sortedDistinct l).Pairwise (· < ·) := by
  induction l with
  | nil => simp [sortedDistinct]
  | cons a r ih => exact insertNew_sorted a _ ih

theorem mem_sortedDistinct (m : Nat) (l : List Nat) : m ∈ sortedDistinct l ↔ m ∈ l := by
  induction l with
  | nil => simp [sortedDistinct]
  | cons a r ih =>
    show m ∈ insertNew a (sortedDistinct r) ↔ _
    rw [mem_insertNew, ih, List.mem_cons]

section
variable {K : Type} [Field K] [LinearOrder K] [IsStrictOrderedRing K]

/-- A column that is a signal, not a time, with a number. -/
def hasNumber (n : Nat) (c : Column K) : Bool := canBeTime c.data == some false && numberOf c.name == some n

/-- A column of a winding. -/
def ofWinding (k : Nat) (c : Column K) : Column K := { c with winding := some k }

theorem numbered_cases (c : Column K) (rest : List (Column K)) (cs : List (Column K)) (h : numbered (c :: rest) = .ok cs) :
    ∃ cs', numbered rest = .ok cs' ∧ ((canBeTime c.data = some true ∧ cs = { c with winding := none } :: cs') ∨
      ∃ n, canBeTime c.data = some false ∧ numberOf c.name = some n ∧ cs = { c with winding := some n } :: cs') := by
  rw [numbered] at h
  rcases ht : canBeTime c.data with _ | _ | _
  · simp [ht] at h
  · rw [ht] at h
    cases hn : numberOf c.name with
    | none => simp [hn] at h
    | some n =>
      simp only [hn, Bool.false_eq_true, if_false, Option.map_some] at h
      cases hr : numbered rest with
      | ok cs' => rw [hr] at h; simp at h; exact ⟨cs', rfl, .inr ⟨n, rfl, rfl, h.symm⟩⟩
      | throw e => rw [hr] at h; simp at h
      | ub => rw [hr] at h; simp at h
  · rw [ht] at h
    simp only [if_true] at h
    cases hr : numbered rest with
    | ok cs' => rw [hr] at h; simp at h; exact ⟨cs', rfl, .inl ⟨rfl, h.symm⟩⟩
    | throw e => rw [hr] at h; simp at h
    | ub => rw [hr] at h; simp at h

theorem numbered_mem {cols cs : List (Column K)} (h : numbered cols = .ok cs) (n : Nat) :
    n ∈ cs.filterMap Column.winding ↔ ∃ c ∈ cols, hasNumber n c = true := by
  induction cols generalizing cs with
  | nil => simp [numbered] at h; subst h; simp
  | cons c r ih =>
    obtain ⟨cs', hr, ⟨ht, rfl⟩ | ⟨m, ht, hm, rfl⟩⟩ := numbered_cases c r cs h
    · rw [List.filterMap_cons_none rfl, ih hr]
      simp [hasNumber, ht]
    · rw [show List.filterMap Column.winding ({ c with winding := some m } :: cs') = m :: List.filterMap Column.winding cs' from
        List.filterMap_cons_some rfl, List.mem_cons, ih hr]
      rw [show (n = m) = (m = n) from propext eq_comm]
      simp [hasNumber, ht, hm]

theorem numbered_filter {cols cs : List (Column K)} (h : numbered cols = .ok cs) (n k : Nat) :
    (cs.filter fun c => c.winding == some n).map (ofWinding k) = (cols.filter (hasNumber n)).map (ofWinding k) := by
  induction cols generalizing cs with
  | nil => simp [numbered] at h; subst h; simp
  | cons c r ih =>
    obtain ⟨cs', hr, ⟨ht, rfl⟩ | ⟨m, ht, hm, rfl⟩⟩ := numbered_cases c r cs h
    · rw [List.filter_cons_of_neg (by simp), List.filter_cons_of_neg (by simp [hasNumber, ht]), ih hr]
    · by_cases hmn : m = n
      · rw [List.filter_cons_of_pos (by simp [hmn]), List.filter_cons_of_pos (by simp [hasNumber, ht, hm, hmn]), List.map_cons,
          List.map_cons, ih hr]
        rfl
      · rw [List.filter_cons_of_neg (by simp [hmn]), List.filter_cons_of_neg (by simp [hasNumber, ht, hm, hmn]), ih hr]

/-- The columns by winding: those of each number in the order of the file. -/
def byWinding (cols : List (Column K)) (numbers : List Nat) (k : Nat) : List (Column K) :=
  (numbers.zipIdx k).flatMap fun p => (cols.filter (hasNumber p.1)).map (ofWinding p.2)

theorem reset_eq {cols cs : List (Column K)} (h : numbered cols = .ok cs) (k : Nat) (ns : List Nat) :
    reset cs k ns = byWinding cols ns k := by
  induction ns generalizing k with
  | nil => rfl
  | cons n r ih =>
    rw [reset, ih, byWinding, byWinding, List.zipIdx_cons, List.flatMap_cons]
    congr 1
    exact numbered_filter h n k

/-- **C281.** The windings of the signals are 0, 1, ... in the order of the different numbers that their names have, whatever these are: the columns
of each winding are those of its number, in the order of the file, and the times are left out. -/
theorem windings_compact {cols cs : List (Column K)} (h : windingIndexes cols = .ok cs) :
    ∃ numbers : List Nat, numbers.Pairwise (· < ·) ∧ (∀ n, n ∈ numbers ↔ ∃ c ∈ cols, hasNumber n c = true) ∧
      cs = byWinding cols numbers 0 := by
  unfold windingIndexes at h
  cases hn : numbered cols with
  | ok cs' =>
    rw [hn] at h
    simp at h
    refine ⟨sortedDistinct (cs'.filterMap Column.winding), sortedDistinct_sorted _, fun n => ?_, ?_⟩
    · rw [mem_sortedDistinct, numbered_mem hn]
    · rw [← h, reset_eq hn]
  | throw e => rw [hn] at h; simp at h
  | ub => rw [hn] at h; simp at h

theorem mem_byWinding {cols : List (Column K)} {numbers : List Nat} {a : Column K} (h : a ∈ byWinding cols numbers 0) :
    ∃ i n, numbers[i]? = some n ∧ a.winding = some i ∧ hasNumber n a = true := by
  unfold byWinding at h
  rw [List.mem_flatMap] at h
  obtain ⟨⟨n, i⟩, hp, ha⟩ := h
  rw [List.mem_map] at ha
  obtain ⟨c, hc, rfl⟩ := ha
  rw [List.mem_filter] at hc
  refine ⟨i, n, ?_, rfl, hc.2⟩
  have := List.mem_zipIdx_iff_getElem?.1 hp
  simpa using this

/-- **C281.** So two signals are of the same winding when their names have the same number, and of a later one when theirs is larger. -/
theorem winding_order {cols cs : List (Column K)} (h : windingIndexes cols = .ok cs) {a b : Column K} (ha : a ∈ cs) (hb : b ∈ cs) :
    ∃ i j m n, a.winding = some i ∧ b.winding = some j ∧ numberOf a.name = some m ∧ numberOf b.name = some n ∧ (i < j ↔ m < n) ∧
      (i = j ↔ m = n) := by
  obtain ⟨numbers, hs, _, rfl⟩ := windings_compact h
  obtain ⟨i, m, hi, hwi, hm⟩ := mem_byWinding ha
  obtain ⟨j, n, hj, hwj, hn⟩ := mem_byWinding hb
  simp only [hasNumber, Bool.and_eq_true, beq_iff_eq] at hm hn
  obtain ⟨hi', hi⟩ := List.getElem?_eq_some_iff.1 hi
  obtain ⟨hj', hj⟩ := List.getElem?_eq_some_iff.1 hj
  have key : ∀ (x y : Nat) (hx : x < numbers.length) (hy : y < numbers.length), x < y → numbers[x] < numbers[y] :=
    fun x y hx hy hxy => List.pairwise_iff_getElem.1 hs x y hx hy hxy
  refine ⟨i, j, m, n, hwi, hwj, hm.2, hn.2, ?_, ?_⟩
  · rcases lt_trichotomy i j with h | h | h
    · have := key i j hi' hj' h; omega
    · subst h; rw [hi] at hj; subst hj; simp
    · have := key j i hj' hi' h; omega
  · rcases lt_trichotomy i j with h | h | h
    · have := key i j hi' hj' h; omega
    · subst h; rw [hi] at hj; subst hj; simp
    · have := key j i hj' hi' h; omega

/-- **C281.** Columns are refused only when one is empty or one that is not a time has a number above the largest `int` in its name. -/
theorem windings_refused (cols : List (Column K)) :
    (windingIndexes cols = .throw .emptyColumn → ∃ c ∈ cols, c.data = []) ∧
      (windingIndexes cols = .throw .hugeNumber → ∃ c ∈ cols, numberOf c.name = none) ∧
      ((∀ c ∈ cols, c.data ≠ [] ∧ numberOf c.name ≠ none) → ∃ cs, windingIndexes cols = .ok cs) := by
  have hnil : ∀ l : List K, canBeTime l = none → l = [] := by
    intro l h; rcases l with _ | ⟨a, _ | ⟨b, r⟩⟩
    · rfl
    · simp [canBeTime] at h
    · simp [canBeTime] at h
  have key : (∃ cs, numbered cols = .ok cs) ∨ (numbered cols = .throw .emptyColumn ∧ ∃ c ∈ cols, c.data = []) ∨
      (numbered cols = .throw .hugeNumber ∧ ∃ c ∈ cols, numberOf c.name = none) := by
    induction cols with
    | nil => exact .inl ⟨[], rfl⟩
    | cons c r ih =>
      rw [numbered]
      rcases ht : canBeTime c.data with _ | b
      · exact .inr (.inl ⟨rfl, c, by simp, hnil _ ht⟩)
      · simp only
        cases hn : (if b = true then some none else (numberOf c.name).map some : Option (Option Nat)) with
        | none =>
          refine .inr (.inr ⟨rfl, c, by simp, ?_⟩)
          cases b <;> simp at hn; exact hn
        | some n =>
          simp only
          rcases ih with ⟨cs, h⟩ | ⟨h, x, hx, hx'⟩ | ⟨h, x, hx, hx'⟩
          · rw [h]; exact .inl ⟨_, rfl⟩
          · rw [h]; exact .inr (.inl ⟨rfl, x, by simp [hx], hx'⟩)
          · rw [h]; exact .inr (.inr ⟨rfl, x, by simp [hx], hx'⟩)
  unfold windingIndexes
  rcases key with ⟨cs, h⟩ | ⟨h, x, hx, hx'⟩ | ⟨h, x, hx, hx'⟩
  · rw [h]; exact ⟨by simp, by simp, fun _ => ⟨_, rfl⟩⟩
  · rw [h]; exact ⟨fun _ => ⟨x, hx, hx'⟩, by simp, fun hh => absurd hx' (hh x hx).1⟩
  · rw [h]; exact ⟨by simp, fun _ => ⟨x, hx, hx'⟩, fun hh => absurd hx' (hh x hx).2⟩

end

/-- A signal of four samples. -/
def signal (name : String) : Column ℚ := { name := name.toList, data := [1, 0, 1, 0] }

/-- **C281.** A label of one letter counts anywhere in a name: of the winding `b`, the current is of the second winding and the voltage of the first,
for the `a` in `Voltage`. -/
theorem letter_counterexample :
    windingIndexes [signal "Current a", signal "Voltage a", signal "Current b", signal "Voltage b"] =
      .ok [ofWinding 0 (signal "Current a"), ofWinding 0 (signal "Voltage a"), ofWinding 0 (signal "Voltage b"), ofWinding 1 (signal "Current b")] := by
  decide +kernel

/-- Case of `windings_compact` and `winding_order`: numbers 3 and 7. -/
example : windingIndexes (K := ℚ) [{ name := "time".toList, data := [0, 1, 2, 3] }, signal "I(L7)", signal "V3", signal "I(L3)"] =
    .ok [ofWinding 0 (signal "V3"), ofWinding 0 (signal "I(L3)"), ofWinding 1 (signal "I(L7)")] := by decide +kernel

/-- Case of `number_of_digits`. -/
example : numberOf "V(n001,N002)".toList = some 2 := by decide +kernel

/-- Case of `windings_refused`. -/
example : windingIndexes [signal "node4000000000"] = .throw .hugeNumber := by decide +kernel

end Verif.Reader
