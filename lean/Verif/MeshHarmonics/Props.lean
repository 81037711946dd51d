import Mathlib.Tactic.Ring
import Mathlib.Tactic.Linarith
import Mathlib.Tactic.NormNum
import Mathlib.Algebra.Order.Archimedean.Basic
import Mathlib.Algebra.Order.Ring.Rat
import Verif.Harmonics.Props
import Verif.MeshHarmonics.Model

/-! # Properties of the harmonics of a mesh -/

set_option linter.unusedSimpArgs false
set_option linter.unusedVariables false
set_option linter.unusedSectionVars false

namespace Verif.MeshHarmonics

open Verif.Harmonics

variable {K : Type} [Field K] [LinearOrder K] [IsStrictOrderedRing K]

/-- Above one no harmonic reaches the threshold. -/
theorem none_above_one {rt : K → K} {op : List (Excitation K)} {t : K} (ht : 1 < t) {l : List Nat}
    (h : ofOperatingPoint rt op t .current none = .ok l) : l = [] := by
  by_contra hne
  obtain ⟨i, hi⟩ := List.exists_mem_of_ne_nil l hne
  obtain ⟨e, he, le, hle, hil⟩ := ((operating_point_union h).2 i).mp hi
  unfold ofExcitation at hle
  cases hc : e.current with
  | none => rw [hc] at hle; simp at hle
  | some g =>
    rw [hc] at hle
    simp only at hle
    have hcomp : Complete g := by
      by_contra hn
      rw [(main_ub_iff rt g t).mpr hn] at hle
      simp at hle
    obtain ⟨l', m, h1, h2, -, h4⟩ := main_exact rt hcomp t
    rw [hle, Res.ok.injEq] at h1
    subst h1
    obtain ⟨hm, hp, w, hw, hlt⟩ := (h4 i).mp hil
    have h5 := h2.2.2 i w hp hw
    have h6 : 0 < m := lt_of_le_of_ne h2.1 (Ne.symm hm)
    nlinarith

theorem common_mono (rt : K → K) (op : List (Excitation K)) : ∀ (n : Nat) (t : K) (r : Res (List Nat)),
    common rt op n t = some r → ∀ m, n ≤ m → common rt op m t = some r
  | 0, t, r, h, m, hm => by simp [common] at h
  | n + 1, t, r, h, 0, hm => by omega
  | n + 1, t, r, h, m + 1, hm => by
    have ih := fun t' h' => common_mono rt op n t' r h' m (by omega)
    unfold common at h ⊢
    cases ho : ofOperatingPoint rt op t .current none with
    | throws => rw [ho] at h; exact h
    | ub => rw [ho] at h; exact h
    | ok l =>
      rw [ho] at h
      cases l with
      | nil => exact h
      | cons i is =>
        cases op with
        | nil => exact h
        | cons e es =>
          simp only at h ⊢
          cases hc : e.current with
          | none => rw [hc] at h; exact h
          | some g =>
            rw [hc] at h
            simp only at h ⊢
            split_ifs at h ⊢ with hl
            · exact ih _ h
            · exact h

/-- **C441.** With a threshold above zero the selection of harmonics of a mesh ends. -/
theorem ends_partial [Archimedean K] (rt : K → K) (op : List (Excitation K)) {t : K} (ht : 0 < t) :
    ∃ n r, ∀ m, n ≤ m → common rt op m t = some r := by
  suffices H : ∃ n r, common rt op n t = some r by
    obtain ⟨n, r, h⟩ := H
    exact ⟨n, r, common_mono rt op n t r h⟩
  obtain ⟨k, hk⟩ : ∃ k : Nat, 1 < t * 3 ^ k := by
    obtain ⟨k, hk⟩ := pow_unbounded_of_one_lt (1 / t) (by norm_num : (1 : K) < 3)
    refine ⟨k, ?_⟩
    rw [div_lt_iff₀ ht] at hk
    linarith
  have key : ∀ (k : Nat) (t : K), 1 < t * 3 ^ k → ∃ r, common rt op (k + 1) t = some r := by
    intro k
    induction k with
    | zero =>
      intro t h
      rw [pow_zero, mul_one] at h
      unfold common
      cases ho : ofOperatingPoint rt op t .current none with
      | throws => exact ⟨_, rfl⟩
      | ub => exact ⟨_, rfl⟩
      | ok l =>
        rw [none_above_one h ho]
        exact ⟨_, rfl⟩
    | succ k ih =>
      intro t h
      obtain ⟨r', h'⟩ := ih (t * 3) (by rw [pow_succ] at h; linarith)
      unfold common
      cases ho : ofOperatingPoint rt op t .current none with
      | throws => exact ⟨_, rfl⟩
      | ub => exact ⟨_, rfl⟩
      | ok l =>
        cases l with
        | nil => exact ⟨_, rfl⟩
        | cons i is =>
          cases op with
          | nil => exact ⟨_, rfl⟩
          | cons e es =>
            simp only
            cases hc : e.current with
            | none => exact ⟨_, rfl⟩
            | some g =>
              simp only
              split_ifs
              · exact ⟨r', h'⟩
              · exact ⟨_, rfl⟩
  obtain ⟨r, h⟩ := key k t hk
  exact ⟨k + 1, r, h⟩

/-- **C441.** The harmonics returned are those that reach the threshold or a threefold multiple of it in some winding, no more of them
than the first winding has amplitudes; or, when none does, the fundamental, if a winding has it. -/
theorem common_spec (rt : K → K) (op : List (Excitation K)) : ∀ (n : Nat) (t : K) (l : List Nat),
    common rt op n t = some (.ok l) → ∃ k : Nat,
      (l ≠ [] ∧ ofOperatingPoint rt op (t * 3 ^ k) .current none = .ok l ∧
        ∃ e es g, op = e :: es ∧ e.current = some g ∧ l.length ≤ g.amplitudes.length) ∨
      (ofOperatingPoint rt op (t * 3 ^ k) .current none = .ok [] ∧
        ((l = [1] ∧ ∃ e ∈ op, ∃ g f, e.current = some g ∧ g.frequencies[1]? = some f ∧ 0 < f) ∨
         (l = [] ∧ ∀ e ∈ op, ∀ g f, e.current = some g → g.frequencies[1]? = some f → f ≤ 0)))
  | 0, t, l, h => by simp [common] at h
  | n + 1, t, l, h => by
    have ih := fun h' => common_spec rt op n (t * 3) l h'
    have hf : ∀ e : Excitation K, fundamental e = true ↔ ∃ g f, e.current = some g ∧ g.frequencies[1]? = some f ∧ 0 < f := by
      intro e
      unfold fundamental
      cases e.current with
      | none => simp
      | some g =>
        simp only [Option.some.injEq]
        cases hg : g.frequencies[1]? with
        | none =>
          simp only
          refine iff_of_false (by simp) ?_
          rintro ⟨g', f, rfl, h', -⟩
          rw [hg] at h'; simp at h'
        | some f =>
          simp only [decide_eq_true_eq]
          constructor
          · intro h; exact ⟨g, f, rfl, hg, h⟩
          · rintro ⟨g', f', rfl, h', h''⟩
            rw [hg, Option.some.injEq] at h'
            exact h' ▸ h''
    unfold common at h
    cases ho : ofOperatingPoint rt op t .current none with
    | throws => rw [ho] at h; simp at h
    | ub => rw [ho] at h; simp at h
    | ok l' =>
      rw [ho] at h
      cases l' with
      | nil =>
        simp only [Option.some.injEq, Res.ok.injEq] at h
        refine ⟨0, .inr ⟨by rw [pow_zero, mul_one, ho], ?_⟩⟩
        by_cases ha : op.any fundamental = true
        · rw [if_pos ha] at h
          obtain ⟨e, he, hfe⟩ := List.any_eq_true.mp ha
          exact .inl ⟨h.symm, e, he, (hf e).mp hfe⟩
        · rw [if_neg ha] at h
          refine .inr ⟨h.symm, fun e he g f h1 h2 => ?_⟩
          by_contra hc
          exact ha (List.any_eq_true.mpr ⟨e, he, (hf e).mpr ⟨g, f, h1, h2, not_le.mp hc⟩⟩)
      | cons i is =>
        cases op with
        | nil => simp at h
        | cons e es =>
          simp only at h
          cases hc : e.current with
          | none => rw [hc] at h; simp at h
          | some g =>
            rw [hc] at h
            simp only at h
            by_cases hl : g.amplitudes.length < (i :: is).length
            · rw [if_pos hl] at h
              obtain ⟨k, hk⟩ := ih h
              refine ⟨k + 1, ?_⟩
              have e3 : t * 3 ^ (k + 1) = t * 3 * 3 ^ k := by ring
              rw [e3]
              exact hk
            · rw [if_neg hl, Option.some.injEq, Res.ok.injEq] at h
              subst h
              exact ⟨0, .inl ⟨by simp, by rw [pow_zero, mul_one, ho], e, es, g, rfl, hc, not_lt.mp hl⟩⟩

/-- Currents of which the second has more harmonics than the first. -/
def uneven : List (Excitation ℚ) :=
  [⟨some ⟨[0, 1], [0, 1]⟩, none, none⟩, ⟨some ⟨[0, 1, 1, 1], [0, 1, 4, 9]⟩, none, none⟩]

/-- The square root of the frequencies of `uneven`. -/
def root (f : ℚ) : ℚ := if f = 4 then 2 else if f = 9 then 3 else f

/-- **C441.** With a threshold of zero it does not end, when a winding has more harmonics than the first one has amplitudes. -/
theorem never_ends : ∀ n, common (K := ℚ) root uneven n 0 = none
  | 0 => rfl
  | n + 1 => by
    have ho : ofOperatingPoint (K := ℚ) root uneven 0 .current none = .ok [1, 2, 3] := by decide +kernel
    unfold common
    rw [ho]
    simp only [uneven, List.length_cons, List.length_nil]
    rw [if_pos (by norm_num), zero_mul]
    exact never_ends n

example : common (K := ℚ) root uneven 5 (1 / 10) = some (.ok [1, 3]) := by decide +kernel

end Verif.MeshHarmonics
