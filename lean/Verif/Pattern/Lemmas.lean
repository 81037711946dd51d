import Verif.Pattern.Model
import Mathlib.Tactic.Linarith
import Mathlib.Tactic.IntervalCases

/-! # Lemmas about repeated lists and the search for the unit length -/

namespace Verif.Pattern

theorem repeatsFrom_spec (s : List Nat) (u i : Nat) (hu : 1 ≤ u) (hui : u ≤ i) :
    ∃ b, repeatsFrom s u i = some b ∧
      (b = true ↔ ∀ k, i ≤ k → k < s.length → s[k]? = s[k % u]?) := by
  induction h : s.length - i generalizing i with
  | zero =>
    refine ⟨true, ?_, ?_⟩
    · rw [repeatsFrom, dif_neg (by omega)]
    · simp only [true_iff]; intro k h1 h2; omega
  | succ n ih =>
    have hi : i < s.length := by omega
    have hm : i % u < s.length := lt_of_lt_of_le (Nat.mod_lt _ (by omega)) (by omega)
    rw [repeatsFrom, dif_pos hi]
    have e1 : s[i]? = some s[i] := List.getElem?_eq_getElem hi
    have e2 : s[i % u]? = some s[i % u] := List.getElem?_eq_getElem hm
    simp only [e1, e2]
    by_cases heq : s[i] = s[i % u]
    · rw [if_pos heq]
      obtain ⟨b, hb1, hb2⟩ := ih (i + 1) (by omega) (by omega)
      refine ⟨b, hb1, hb2.trans ⟨fun hh k h1 h2 => ?_, fun hh k h1 h2 => hh k (by omega) h2⟩⟩
      rcases Nat.eq_or_lt_of_le h1 with rfl | h1
      · rw [e1, e2, heq]
      · exact hh k h1 h2
    · rw [if_neg heq]
      refine ⟨false, rfl, ?_⟩
      simp only [Bool.false_eq_true, false_iff]
      intro hh
      have := hh i le_rfl hi
      rw [e1, e2, Option.some.injEq] at this
      exact heq this

/-- `u` divides the length and every element repeats the one at its index modulo `u`. -/
def Unit (s : List Nat) (u : Nat) : Prop :=
  s.length % u = 0 ∧ ∀ k, u ≤ k → k < s.length → s[k]? = s[k % u]?

theorem unitFrom_spec (s : List Nat) (hs : s ≠ []) (u : Nat) (hu : 1 ≤ u)
    (hb : ∀ v, 1 ≤ v → v < u → v < s.length → ¬ Unit s v) :
    ∃ r, unitFrom s u = some r ∧ 1 ≤ r ∧ Unit s r ∧ r ≤ s.length ∧
      ∀ v, 1 ≤ v → v < r → ¬ Unit s v := by
  have hpos : 0 < s.length := List.length_pos_of_ne_nil hs
  induction h : s.length / 2 + 1 - u generalizing u with
  | zero =>
    rw [unitFrom, dif_neg (by omega)]
    refine ⟨s.length, rfl, hpos, ⟨Nat.mod_self _, fun k h1 h2 => by omega⟩, le_rfl, ?_⟩
    intro v h1 h2 hU
    by_cases hv : v < u
    · exact hb v h1 hv h2 hU
    · have hd : v ∣ s.length := Nat.dvd_of_mod_eq_zero hU.1
      obtain ⟨c, hc⟩ := hd
      have : 2 ≤ c := by
        rcases Nat.lt_or_ge c 2 with hc2 | hc2
        · interval_cases c <;> omega
        · exact hc2
      have : v * 2 ≤ s.length := by rw [hc]; exact Nat.mul_le_mul_left _ this
      omega
  | succ n ih =>
    rw [unitFrom, dif_pos (by omega)]
    have next : ¬ Unit s u → ∃ r, unitFrom s (u + 1) = some r ∧ 1 ≤ r ∧ Unit s r ∧ r ≤ s.length ∧
        ∀ v, 1 ≤ v → v < r → ¬ Unit s v := by
      intro hn
      refine ih (u + 1) (by omega) ?_ (by omega)
      intro v h1 h2 h3
      rcases Nat.lt_succ_iff_lt_or_eq.mp h2 with h2 | rfl
      · exact hb v h1 h2 h3
      · exact hn
    by_cases hm : s.length % u = 0
    · rw [if_neg (by simpa using hm)]
      obtain ⟨b, hb1, hb2⟩ := repeatsFrom_spec s u u hu le_rfl
      rw [hb1]
      cases b with
      | true =>
        refine ⟨u, rfl, hu, ⟨hm, hb2.mp rfl⟩, by omega, ?_⟩
        intro v h1 h2
        exact hb v h1 h2 (by omega)
      | false =>
        refine next ?_
        rintro ⟨_, hr⟩
        exact Bool.false_ne_true (hb2.mpr hr)
    · rw [if_pos (by simpa using hm)]
      exact next (fun hU => hm hU.1)

theorem length_flatten_replicate (p : List Nat) (r : Nat) :
    (List.replicate r p).flatten.length = r * p.length := by
  simp

theorem getElem?_flatten_replicate (p : List Nat) (r k : Nat) (hk : k < r * p.length) :
    (List.replicate r p).flatten[k]? = p[k % p.length]? := by
  induction r generalizing k with
  | zero => omega
  | succ r ih =>
    rw [List.replicate_succ, List.flatten_cons]
    by_cases h : k < p.length
    · rw [List.getElem?_append_left h, Nat.mod_eq_of_lt h]
    · have h := not_lt.mp h
      rw [List.getElem?_append_right h, ih (k - p.length)]
      · rw [← Nat.mod_eq_sub_mod h]
      · rw [Nat.succ_mul] at hk; omega

/-- `s` is a list repeated iff its length is a unit. -/
theorem unit_iff (s : List Nat) (u : Nat) (hu : 1 ≤ u) (hul : u ≤ s.length) :
    Unit s u ↔ ∃ p r, p.length = u ∧ (List.replicate r p).flatten = s := by
  constructor
  · rintro ⟨h1, h2⟩
    refine ⟨s.take u, s.length / u, by simp [hul], ?_⟩
    have hl : (s.take u).length = u := by simp [hul]
    have hlen : s.length / u * u = s.length := Nat.div_mul_cancel (Nat.dvd_of_mod_eq_zero h1)
    apply List.ext_getElem?
    intro k
    by_cases hk : k < s.length
    · rw [getElem?_flatten_replicate _ _ _ (by rw [hl, hlen]; exact hk), hl,
        List.getElem?_take_of_lt (Nat.mod_lt _ (by omega))]
      by_cases hku : k < u
      · rw [Nat.mod_eq_of_lt hku]
      · exact (h2 k (by omega) hk).symm
    · rw [List.getElem?_eq_none (l := s) (by omega), List.getElem?_eq_none]
      rw [length_flatten_replicate, hl, hlen]; omega
  · rintro ⟨p, r, rfl, rfl⟩
    rw [length_flatten_replicate] at hul
    refine ⟨by rw [length_flatten_replicate]; exact Nat.mul_mod_left _ _, ?_⟩
    intro k h1 h2
    rw [length_flatten_replicate] at h2
    have hm := Nat.mod_lt k (show p.length > 0 by omega)
    rw [getElem?_flatten_replicate _ _ _ h2, getElem?_flatten_replicate _ _ _ (by omega), Nat.mod_mod]

end Verif.Pattern
