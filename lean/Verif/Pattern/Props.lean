import Verif.Pattern.Lemmas
import Mathlib.Data.List.Forall2

/-! # C32: the derived winding pattern -/

namespace Verif.Pattern

/-! ## Specification -/

/-- A pattern wound a number of times. -/
def expand (pattern : List Nat) (repetitions : Nat) : List Nat := (List.replicate repetitions pattern).flatten

/-- The coil's conduction sections, in order, each wound with exactly one winding of the coil; the entry is
the position of the first winding with that name. -/
def Winds (names : List String) (sections : List Section) (s : List Nat) : Prop :=
  List.Forall₂ (fun (sec : Section) (i : Nat) => ∃ n, sec.windings = [n] ∧ names[i]? = some n ∧
      ∀ j, j < i → names[j]? ≠ some n) (sections.filter (·.conduction)) s

/-! ## Theorems -/

theorem windingIndex_spec {name : String} {ws : List String} {i k : Nat} :
    windingIndex name ws i = some k ↔ i ≤ k ∧ ws[k - i]? = some name ∧ ∀ j, j < k - i → ws[j]? ≠ some name := by
  induction ws generalizing i with
  | nil => simp [windingIndex]
  | cons w ws ih =>
    simp only [windingIndex]
    by_cases h : w = name
    · rw [if_pos h]
      constructor
      · rintro ⟨⟩
        simp [h]
      · rintro ⟨h1, h2, h3⟩
        have : k - i = 0 := by
          by_contra hc
          exact h3 0 (by omega) (by simp [h])
        rw [show k = i by omega]
    · rw [if_neg h, ih]
      constructor
      · rintro ⟨h1, h2, h3⟩
        have e : k - i = (k - (i + 1)) + 1 := by omega
        refine ⟨by omega, by rw [e, List.getElem?_cons_succ]; exact h2, ?_⟩
        intro j hj
        cases j with
        | zero => simpa using h
        | succ j => rw [List.getElem?_cons_succ]; exact h3 j (by omega)
      · rintro ⟨h1, h2, h3⟩
        have hk : k ≠ i := by
          rintro rfl
          simp at h2
          exact h h2
        have e : k - i = (k - (i + 1)) + 1 := by omega
        rw [e, List.getElem?_cons_succ] at h2
        refine ⟨by omega, h2, fun j hj => ?_⟩
        have := h3 (j + 1) (by omega)
        rwa [List.getElem?_cons_succ] at this

theorem sequence_iff (names : List String) (ss : List Section) (s : List Nat) :
    sequence names ss = some s ↔ Winds names ss s := by
  unfold Winds
  induction ss generalizing s with
  | nil =>
    simp only [sequence, List.filter_nil, Option.some.injEq, List.forall₂_nil_left_iff]
    exact eq_comm
  | cons a ss ih =>
    simp only [sequence]
    by_cases hc : a.conduction = false
    · rw [if_pos hc, ih, List.filter_cons_of_neg (by simp [hc])]
    · rw [if_neg hc, List.filter_cons_of_pos (by simpa using hc), List.forall₂_cons_left_iff]
      constructor
      · intro h
        split at h
        · rename_i name hn
          split at h
          · rename_i i hi
            rw [Option.map_eq_some_iff] at h
            obtain ⟨t, ht, rfl⟩ := h
            have := windingIndex_spec.mp hi
            exact ⟨i, t, ⟨name, hn, by simpa using this.2.1, by simpa using this.2.2⟩, (ih t).mp ht, rfl⟩
          · cases h
        · cases h
      · rintro ⟨i, t, ⟨n, hn, h1, h2⟩, ht, rfl⟩
        have hi : windingIndex n names 0 = some i := windingIndex_spec.mpr ⟨by omega, by simpa using h1, by simpa using h2⟩
        rw [hn]
        simp only [hi, (ih t).mpr ht, Option.map_some]

/-- C32: the derived pattern and repetitions reproduce the sequence of the coil's conduction sections, and no
shorter pattern does with any number of repetitions. -/
theorem derived_pattern {names : List String} {sections : Option (List Section)} {p : List Nat} {r : Nat}
    (h : derive names sections = .wind p r) :
    ∃ ss s, sections = some ss ∧ Winds names ss s ∧ s ≠ [] ∧ expand p r = s ∧
      ∀ p' r', expand p' r' = s → p.length ≤ p'.length := by
  unfold derive at h
  cases sections with
  | none => cases h
  | some ss =>
    simp only at h
    cases hs : sequence names ss with
    | none => rw [hs] at h; cases h
    | some s =>
      rw [hs] at h
      cases s with
      | nil => cases h
      | cons x xs =>
        simp only at h
        obtain ⟨u, hu, hu1, hU, hul, hmin⟩ := unitFrom_spec (x :: xs) (by simp) 1 le_rfl (fun v h1 h2 => by omega)
        rw [hu] at h
        simp only [Out.wind.injEq] at h
        obtain ⟨rfl, rfl⟩ := h
        refine ⟨ss, x :: xs, rfl, (sequence_iff _ _ _).mp hs, by simp, ?_, ?_⟩
        · obtain ⟨p, r, hp, hr⟩ := (unit_iff _ u hu1 hul).mp hU
          have hr1 : 1 ≤ r := by
            rcases Nat.eq_zero_or_pos r with rfl | hr1
            · simp at hr
            · exact hr1
          have e1 : (x :: xs).take u = p := by
            obtain ⟨r, rfl⟩ : ∃ n, r = n + 1 := ⟨r - 1, by omega⟩
            rw [← hr, List.replicate_succ, List.flatten_cons, ← hp, List.take_left]
          have e2 : (x :: xs).length / u = r := by
            rw [← hr, length_flatten_replicate, hp]
            exact Nat.mul_div_cancel _ hu1
          rw [e1, e2]
          exact hr
        · intro p' r' he
          have hl : ((x :: xs).take u).length = u := by
            rw [List.length_take]; omega
          rw [hl]
          by_contra hc
          have hc := not_le.mp hc
          have hp1 : 1 ≤ p'.length := by
            rcases Nat.eq_zero_or_pos p'.length with h0 | h0
            · rw [List.length_eq_zero_iff] at h0
              subst h0
              simp [expand] at he
            · exact h0
          exact hmin p'.length hp1 hc ((unit_iff _ _ hp1 (by omega)).mpr ⟨p', r', rfl, he⟩)

/-- C32: a pattern is derived exactly when the coil has conduction sections and each is wound with exactly one
winding of the coil; the derivation never reads out of range. -/
theorem derivable_iff (names : List String) (ss : List Section) :
    (∃ p r, derive names (some ss) = .wind p r) ↔ ∃ s, s ≠ [] ∧ Winds names ss s := by
  constructor
  · rintro ⟨p, r, h⟩
    obtain ⟨ss', s, e, h1, h2, _⟩ := derived_pattern h
    cases e
    exact ⟨s, h2, h1⟩
  · rintro ⟨s, hs, hw⟩
    obtain ⟨u, hu, _⟩ := unitFrom_spec s hs 1 le_rfl (fun v h1 h2 => by omega)
    refine ⟨s.take u, s.length / u, ?_⟩
    unfold derive
    simp only
    rw [(sequence_iff _ _ _).mpr hw]
    cases s with
    | nil => exact absurd rfl hs
    | cons x xs => simp only [hu]

theorem never_ub (names : List String) (sections : Option (List Section)) : derive names sections ≠ .ub := by
  intro h
  unfold derive at h
  cases sections with
  | none => cases h
  | some ss =>
    simp only at h
    cases hs : sequence names ss with
    | none => rw [hs] at h; cases h
    | some s =>
      rw [hs] at h
      cases s with
      | nil => cases h
      | cons x xs =>
        obtain ⟨u, hu, _⟩ := unitFrom_spec (x :: xs) (by simp) 1 le_rfl (fun v h1 h2 => by omega)
        simp only [hu] at h
        cases h

/-- Four sections P, S, P, S with insulation between give the pattern {0, 1} twice. -/
example : derive ["P", "S"] (some [⟨true, ["P"]⟩, ⟨false, []⟩, ⟨true, ["S"]⟩, ⟨true, ["P"]⟩, ⟨true, ["S"]⟩]) =
    .wind [0, 1] 2 := by
  simp [derive, sequence, windingIndex, unitFrom, repeatsFrom]

end Verif.Pattern
