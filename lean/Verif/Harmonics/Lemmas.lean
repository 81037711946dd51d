import Verif.Harmonics.Model
import Mathlib.Data.List.Nodup

/-! # Lemmas about the harmonic selection loops -/

set_option linter.unusedSectionVars false

namespace Verif.Harmonics

variable {K : Type} [Field K] [LinearOrder K] [IsStrictOrderedRing K]

theorem bind_ok {α β : Type} {r : Res α} {f : α → Res β} {b : β} :
    r.bind f = .ok b ↔ ∃ a, r = .ok a ∧ f a = .ok b := by
  cases r <;> simp [Res.bind]

theorem maxLoop_ok {rt : K → K} {h : Harmonics K} {is : List Nat} {acc m : K}
    (hm : maxLoop rt h is acc = .ok m) :
    acc ≤ m ∧ (m = acc ∨ ∃ i ∈ is, weight rt h i = .ok m) ∧
      ∀ i ∈ is, ∃ w, weight rt h i = .ok w ∧ w ≤ m := by
  induction is generalizing acc with
  | nil => simp [maxLoop] at hm; subst hm; simp
  | cons i is ih =>
    simp only [maxLoop, bind_ok] at hm
    obtain ⟨w, hw, hm⟩ := hm
    obtain ⟨h1, h2, h3⟩ := ih hm
    have le1 : acc ≤ (if w < acc then acc else w) := by split <;> [exact le_rfl; exact not_lt.mp ‹_›]
    have le2 : w ≤ (if w < acc then acc else w) := by split <;> [exact le_of_lt ‹_›; exact le_rfl]
    refine ⟨le_trans le1 h1, ?_, ?_⟩
    · rcases h2 with h2 | ⟨j, hj, hw'⟩
      · by_cases hc : w < acc
        · rw [if_pos hc] at h2; exact Or.inl h2
        · rw [if_neg hc] at h2
          exact Or.inr ⟨i, List.mem_cons_self, by rw [h2]; exact hw⟩
      · exact Or.inr ⟨j, List.mem_cons_of_mem _ hj, hw'⟩
    · intro j hj
      rcases List.mem_cons.mp hj with rfl | hj
      · exact ⟨w, hw, le_trans le2 h1⟩
      · exact h3 j hj

theorem mem_pushNew {l : List Nat} {i j : Nat} : j ∈ pushNew l i ↔ j ∈ l ∨ j = i := by
  unfold pushNew
  split
  · constructor
    · exact Or.inl
    · rintro (h | rfl) <;> assumption
  · simp

theorem nodup_pushNew {l : List Nat} {i : Nat} (h : l.Nodup) : (pushNew l i).Nodup := by
  unfold pushNew
  split
  · exact h
  · rename_i hi
    rw [List.nodup_append]
    refine ⟨h, by simp, ?_⟩
    intro a ha b hb
    simp only [List.mem_singleton] at hb
    rintro rfl
    exact hi (hb ▸ ha)

theorem mem_merge {acc new : List Nat} {j : Nat} : j ∈ merge acc new ↔ j ∈ acc ∨ j ∈ new := by
  induction new generalizing acc with
  | nil => simp [merge]
  | cons i l ih =>
    show j ∈ merge (pushNew acc i) l ↔ _
    rw [ih, mem_pushNew, List.mem_cons, or_assoc]

theorem nodup_merge {acc new : List Nat} (h : acc.Nodup) : (merge acc new).Nodup := by
  induction new generalizing acc with
  | nil => exact h
  | cons i l ih => exact ih (nodup_pushNew h)

theorem selectLoop_ok {rt : K → K} {h : Harmonics K} {limit : K} {is acc l : List Nat}
    (hs : (acc ++ is).Pairwise (· < ·)) (hl : selectLoop rt h limit is acc = .ok l) :
    l.Pairwise (· < ·) ∧ (∀ j, j ∈ l ↔ j ∈ acc ∨ (j ∈ is ∧ ∃ w, weight rt h j = .ok w ∧ limit ≤ w)) ∧
      ∀ j ∈ is, ∃ w, weight rt h j = .ok w := by
  induction is generalizing acc with
  | nil =>
    simp only [selectLoop, Res.ok.injEq] at hl
    subst hl
    simpa using hs
  | cons i is ih =>
    simp only [selectLoop, bind_ok] at hl
    obtain ⟨w, hw, hl⟩ := hl
    by_cases hc : w < limit
    · rw [if_pos hc] at hl
      obtain ⟨h1, h2, h3⟩ := ih (hs.sublist (by simp)) hl
      refine ⟨h1, fun j => ?_, fun j hj => ?_⟩
      · rw [h2, List.mem_cons]
        constructor
        · rintro (h | ⟨h, h'⟩)
          · exact Or.inl h
          · exact Or.inr ⟨Or.inr h, h'⟩
        · rintro (h | ⟨rfl | h, w', hw', h'⟩)
          · exact Or.inl h
          · rw [hw] at hw'; cases hw'; exact absurd hc (not_lt.mpr h')
          · exact Or.inr ⟨h, w', hw', h'⟩
      · rcases List.mem_cons.mp hj with rfl | hj
        · exact ⟨w, hw⟩
        · exact h3 j hj
    · rw [if_neg hc] at hl
      have hi : i ∉ acc := by
        intro hi
        have := (List.pairwise_append.mp hs).2.2 i hi i List.mem_cons_self
        omega
      have e : pushNew acc i = acc ++ [i] := by unfold pushNew; rw [if_neg hi]
      rw [e] at hl
      obtain ⟨h1, h2, h3⟩ := ih (by simpa using hs) hl
      refine ⟨h1, fun j => ?_, fun j hj => ?_⟩
      · rw [h2, List.mem_cons, List.mem_append, List.mem_singleton]
        constructor
        · rintro ((h | rfl) | ⟨h, h'⟩)
          · exact Or.inl h
          · exact Or.inr ⟨Or.inl rfl, w, hw, not_lt.mp hc⟩
          · exact Or.inr ⟨Or.inr h, h'⟩
        · rintro (h | ⟨rfl | h, h'⟩)
          · exact Or.inl (Or.inl h)
          · exact Or.inl (Or.inr rfl)
          · exact Or.inr ⟨h, h'⟩
      · rcases List.mem_cons.mp hj with rfl | hj
        · exact ⟨w, hw⟩
        · exact h3 j hj

theorem selectLoop_total {rt : K → K} {h : Harmonics K} {limit : K} {is acc : List Nat}
    (hw : ∀ i ∈ is, ∃ w, weight rt h i = .ok w) : ∃ l, selectLoop rt h limit is acc = .ok l := by
  induction is generalizing acc with
  | nil => exact ⟨_, rfl⟩
  | cons i is ih =>
    obtain ⟨w, hw'⟩ := hw i List.mem_cons_self
    obtain ⟨l, hl⟩ := @ih (if w < limit then acc else pushNew acc i) (fun j hj => hw j (List.mem_cons_of_mem _ hj))
    exact ⟨l, by simp only [selectLoop, hw', Res.bind, hl]⟩

theorem maxLoop_total {rt : K → K} {h : Harmonics K} {is : List Nat} {acc : K}
    (hw : ∀ i ∈ is, ∃ w, weight rt h i = .ok w) : ∃ m, maxLoop rt h is acc = .ok m := by
  induction is generalizing acc with
  | nil => exact ⟨_, rfl⟩
  | cons i is ih =>
    obtain ⟨w, hw'⟩ := hw i List.mem_cons_self
    obtain ⟨l, hl⟩ := @ih (if w < acc then acc else w) (fun j hj => hw j (List.mem_cons_of_mem _ hj))
    exact ⟨l, by simp only [maxLoop, hw', Res.bind, hl]⟩

theorem mem_indexes {h : Harmonics K} {i : Nat} : i ∈ indexes h ↔ 1 ≤ i ∧ i < h.amplitudes.length := by
  unfold indexes
  rw [List.mem_range'_1]
  omega

theorem indexes_sorted (h : Harmonics K) : (indexes h).Pairwise (· < ·) := List.pairwise_lt_range'

theorem weight_cases (rt : K → K) (h : Harmonics K) (i : Nat) :
    weight rt h i = .ub ∨ ∃ w, weight rt h i = .ok w := by
  unfold weight
  split
  · right; exact ⟨_, rfl⟩
  · left; rfl

theorem weight_ok_iff (rt : K → K) (h : Harmonics K) (i : Nat) :
    (∃ w, weight rt h i = .ok w) ↔ i < h.amplitudes.length ∧ i < h.frequencies.length := by
  unfold weight
  constructor
  · rintro ⟨w, hw⟩
    split at hw
    · rename_i ha hf
      exact ⟨(List.getElem?_eq_some_iff.mp ha).1, (List.getElem?_eq_some_iff.mp hf).1⟩
    · cases hw
  · rintro ⟨h1, h2⟩
    rw [List.getElem?_eq_getElem h1, List.getElem?_eq_getElem h2]
    exact ⟨_, rfl⟩

end Verif.Harmonics
