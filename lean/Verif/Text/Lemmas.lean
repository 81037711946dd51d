import Verif.Text.Model

/-! # Helper lemmas for the text helpers -/

namespace Verif.Text

variable {α : Type} [DecidableEq α]

/-! ## micro sign -/

/-- Closed form of the loop, remembering only the last byte written. -/
def mark (prev : Option UInt8) : List UInt8 → List UInt8
  | [] => []
  | c :: s => if c = 0xB5 ∧ prev ≠ some 0xC2 then 0xC2 :: c :: mark (some c) s
              else c :: mark (some c) s

theorem microLoop_eq (s : List UInt8) : ∀ (i : Nat) (result : List UInt8), (i = 0 ↔ result = []) →
    microLoop i result s = some (result ++ mark result.getLast? s) := by
  induction s with
  | nil => intro i r _; simp [microLoop, mark]
  | cons c s ih =>
    intro i r hi
    unfold microLoop mark
    by_cases hc : c = 0xB5
    · by_cases h0 : i = 0
      · have hr : r = [] := hi.mp h0
        subst hr
        rw [if_pos hc, if_pos h0, ih _ _ (by simp)]
        simp [hc]
      · have hr : r ≠ [] := fun h => h0 (hi.mpr h)
        obtain ⟨b, hb⟩ : ∃ b, r.getLast? = some b := by
          cases h : r.getLast? with
          | none => simp at h; exact absurd h hr
          | some b => exact ⟨b, rfl⟩
        simp only [if_pos hc, if_neg h0, hb]
        by_cases hb2 : b = 0xC2
        · simp only [hb2, ne_eq, not_true_eq_false, if_false, and_false]
          rw [ih _ _ (by simp)]; simp
        · rw [if_pos hb2, ih _ _ (by simp)]
          simp [hc, hb2]
    · rw [if_neg hc, ih _ _ (by simp)]
      simp [hc]

theorem normalizeMicroSign_eq (s : List UInt8) : normalizeMicroSign s = some (mark none s) := by
  unfold normalizeMicroSign
  rw [microLoop_eq s 0 [] (by simp)]
  simp

theorem mark_sublist (s : List UInt8) : ∀ prev, List.Sublist s (mark prev s) := by
  induction s with
  | nil => intro p; simp [mark]
  | cons c s ih =>
    intro p; unfold mark
    split
    · exact List.Sublist.cons _ ((ih _).cons_cons c)
    · exact (ih _).cons_cons c

theorem mark_filter (s : List UInt8) : ∀ prev,
    (mark prev s).filter (fun b => b ≠ 0xC2) = s.filter (fun b => b ≠ 0xC2) := by
  induction s with
  | nil => intro p; simp [mark]
  | cons c s ih =>
    intro p; unfold mark
    have ih' := ih (some c)
    simp only [ne_eq, decide_not] at ih'
    split <;> simp [List.filter_cons, ih']

/-- Every micro byte in `s` is preceded by the UTF-8 lead byte (`prev` precedes the first byte). -/
def Good (prev : Option UInt8) : List UInt8 → Prop
  | [] => True
  | c :: s => (c = 0xB5 → prev = some 0xC2) ∧ Good (some c) s

theorem mark_good (s : List UInt8) : ∀ prev, Good prev (mark prev s) := by
  induction s with
  | nil => intro p; simp [mark, Good]
  | cons c s ih =>
    intro p; unfold mark
    split
    · refine ⟨fun h => absurd h (by decide), fun _ => rfl, ih _⟩
    · rename_i h
      refine ⟨fun hc => ?_, ih _⟩
      by_cases hp : p = some 0xC2
      · exact hp
      · exact absurd ⟨hc, hp⟩ h

theorem mark_of_good (s : List UInt8) : ∀ prev, Good prev s → mark prev s = s := by
  induction s with
  | nil => intro p _; simp [mark]
  | cons c s ih =>
    intro p hg; unfold mark
    have : ¬ (c = 0xB5 ∧ p ≠ some 0xC2) := fun h => h.2 (hg.1 h.1)
    rw [if_neg this, ih _ hg.2]

theorem good_iff (s : List UInt8) : ∀ prev, Good prev s ↔
    ∀ i : Nat, s[i]? = some (0xB5 : UInt8) → (if i = 0 then prev else s[i-1]?) = some 0xC2 := by
  induction s with
  | nil => intro p; simp [Good]
  | cons c s ih =>
    intro p
    simp only [Good, ih]
    constructor
    · rintro ⟨h1, h2⟩ i hi
      cases i with
      | zero => simp at hi; simpa using h1 hi
      | succ i =>
        have := h2 i (by simpa using hi)
        cases i <;> simpa using this
    · intro h
      refine ⟨fun hc => by simpa using h 0 (by simp [hc]), fun i hi => ?_⟩
      have := h (i + 1) (by simpa using hi)
      cases i <;> simpa using this

/-! ## NDJSON -/

theorem findFrom_some (s : List α) (c : α) (start p : Nat) (h : findFrom s c start = some p) :
    ∃ a b, s.drop start = a ++ c :: b ∧ c ∉ a ∧ a.length = p - start ∧ s.drop (p + 1) = b := by
  fun_induction findFrom s c start with
  | case1 start h1 h2 =>
    simp at h; subst h
    refine ⟨[], s.drop (start + 1), ?_, by simp, by simp, rfl⟩
    rw [List.drop_eq_getElem_cons h1, h2]; simp
  | case2 start h1 h2 ih =>
    obtain ⟨a, b, e1, e2, e3, e4⟩ := ih h
    have hb := findFrom_bounds s c (start + 1) p h
    refine ⟨s[start] :: a, b, ?_, ?_, by simp [e3]; omega, e4⟩
    · rw [List.drop_eq_getElem_cons h1, e1]; simp
    · simp [e2]; exact fun h => h2 h.symm
  | case3 => simp at h

theorem findFrom_none (s : List α) (c : α) (start : Nat) (h : findFrom s c start = none) :
    c ∉ s.drop start := by
  fun_induction findFrom s c start with
  | case1 => simp at h
  | case2 start h1 h2 ih =>
    rw [List.drop_eq_getElem_cons h1]
    exact fun hm => (List.mem_cons.mp hm).elim (fun e => h2 e.symm) (ih h)
  | case3 start h1 => rw [List.drop_of_length_le (by omega)]; simp

/-! ## split -/

theorem findSub_some (d : List α) (s : List α) : ∀ p, findSub d s = some p →
    d.isPrefixOf (s.drop p) = true ∧ p + d.length ≤ s.length ∧
      ∀ q, q < p → d.isPrefixOf (s.drop q) = false := by
  induction s with
  | nil =>
    intro p h
    unfold findSub at h
    split at h
    · rename_i hd
      simp at h; subst h; subst hd
      simp
    · simp at h
  | cons x s ih =>
    intro p h
    unfold findSub at h
    split at h
    · rename_i hp
      simp at h; subst h
      refine ⟨by simpa using hp, ?_, by simp⟩
      have := List.IsPrefix.length_le (List.isPrefixOf_iff_prefix.mp hp)
      simpa using this
    · rename_i hp
      cases hs : findSub d s with
      | none => simp [hs] at h
      | some q =>
        simp [hs] at h
        subst h
        obtain ⟨h1, h2, h3⟩ := ih q hs
        refine ⟨by simpa using h1, by simp; omega, ?_⟩
        intro r hr
        cases r with
        | zero => simpa only [List.drop_zero, Bool.not_eq_true] using hp
        | succ r => simpa using h3 r (by omega)

theorem findSub_none (d : List α) (s : List α) : findSub d s = none → ¬ d <:+: s := by
  induction s with
  | nil =>
    intro h hi
    unfold findSub at h
    simp at h
    exact h (List.infix_nil.mp hi)
  | cons x s ih =>
    intro h hi
    unfold findSub at h
    split at h
    · simp at h
    · rename_i hp
      cases hs : findSub d s with
      | some q => simp [hs] at h
      | none =>
        rcases List.infix_cons_iff.mp hi with h' | h'
        · exact hp (List.isPrefixOf_iff_prefix.mpr h')
        · exact ih hs h'

end Verif.Text
