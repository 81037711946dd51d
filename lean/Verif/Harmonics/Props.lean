import Verif.Harmonics.Lemmas
import Mathlib.Algebra.Order.Ring.Rat
import Mathlib.Algebra.Field.Rat

/-! # C33: the main harmonics -/

set_option linter.unusedSectionVars false

namespace Verif.Harmonics

variable {K : Type} [Field K] [LinearOrder K] [IsStrictOrderedRing K]

/-! ## Specification -/

/-- The weighted amplitude of the harmonic `i`, when both vectors have an entry there. -/
def Weighted (rt : K → K) (h : Harmonics K) (i : Nat) (w : K) : Prop :=
  ∃ a f, h.amplitudes[i]? = some a ∧ h.frequencies[i]? = some f ∧ w = a * rt f

/-- Every amplitude other than the DC term has its frequency. -/
def Complete (h : Harmonics K) : Prop := h.amplitudes.length ≤ max 1 h.frequencies.length

/-- Index of a proper harmonic: not the DC term, and in range. -/
def Proper (h : Harmonics K) (i : Nat) : Prop := 1 ≤ i ∧ i < h.amplitudes.length

/-- `m` is the largest weighted amplitude of the proper harmonics, or zero when all are negative. -/
def Largest (rt : K → K) (h : Harmonics K) (m : K) : Prop :=
  0 ≤ m ∧ (m = 0 ∨ ∃ i, Proper h i ∧ Weighted rt h i m) ∧ ∀ i w, Proper h i → Weighted rt h i w → w ≤ m

/-! ## Theorems -/

theorem weighted_iff {rt : K → K} {h : Harmonics K} {i : Nat} {w : K} :
    weight rt h i = .ok w ↔ Weighted rt h i w := by
  unfold weight Weighted
  constructor
  · intro hw
    split at hw
    · rename_i a f ha hf
      cases hw
      exact ⟨a, f, ha, hf, rfl⟩
    · cases hw
  · rintro ⟨a, f, ha, hf, rfl⟩
    rw [ha, hf]

theorem complete_iff {rt : K → K} {h : Harmonics K} :
    (∀ i ∈ indexes h, ∃ w, weight rt h i = .ok w) ↔ Complete h := by
  unfold Complete
  constructor
  · intro hh
    by_contra hc
    have hc : max 1 h.frequencies.length < h.amplitudes.length := not_le.mp hc
    have h1 := hh (h.amplitudes.length - 1) (mem_indexes.mpr (by omega))
    rw [weight_ok_iff] at h1
    omega
  · intro hc i hi
    rw [mem_indexes] at hi
    rw [weight_ok_iff]
    omega

theorem largest_of_reference {rt : K → K} {h : Harmonics K} {m : K} (hr : reference rt h none = .ok m) :
    Largest rt h m := by
  obtain ⟨h1, h2, h3⟩ := maxLoop_ok hr
  refine ⟨h1, ?_, ?_⟩
  · rcases h2 with h2 | ⟨i, hi, hw⟩
    · exact Or.inl h2
    · exact Or.inr ⟨i, mem_indexes.mp hi, weighted_iff.mp hw⟩
  · intro i w hp hw
    obtain ⟨w', hw', hle⟩ := h3 i (mem_indexes.mpr hp)
    rw [weighted_iff.mpr hw] at hw'
    cases hw'
    exact hle

theorem largest_unique {rt : K → K} {h : Harmonics K} {m m' : K} (h1 : Largest rt h m) (h2 : Largest rt h m') :
    m = m' := by
  have aux : ∀ {a b : K}, Largest rt h a → Largest rt h b → a ≤ b := by
    intro a b ha hb
    rcases ha.2.1 with h0 | ⟨i, hp, hw⟩
    · rw [h0]; exact hb.1
    · exact hb.2.2 i a hp hw
  exact le_antisymm (aux h1 h2) (aux h2 h1)

/-- C33, exactly which indexes are returned: for harmonics with all their frequencies the selection succeeds,
and it holds the proper harmonics whose weighted amplitude reaches the threshold times the largest one; none
when the largest is zero. -/
theorem main_exact (rt : K → K) {h : Harmonics K} (hc : Complete h) (threshold : K) :
    ∃ l m, mainIndexes rt h threshold none = .ok l ∧ Largest rt h m ∧ l.Pairwise (· < ·) ∧
      ∀ i, i ∈ l ↔ m ≠ 0 ∧ Proper h i ∧ ∃ w, Weighted rt h i w ∧ m * threshold ≤ w := by
  obtain ⟨m, hm⟩ := maxLoop_total (rt := rt) (acc := 0) ((complete_iff (rt := rt)).mpr hc)
  have hr : reference rt h none = .ok m := hm
  by_cases h0 : m = 0
  · refine ⟨[], m, ?_, largest_of_reference hr, List.Pairwise.nil, ?_⟩
    · unfold mainIndexes; rw [hr]; simp only [Res.bind]; rw [if_pos h0]
    · intro i; simp [h0]
  · obtain ⟨l, hl⟩ := selectLoop_total (rt := rt) (limit := m * threshold) (acc := []) ((complete_iff (rt := rt)).mpr hc)
    obtain ⟨s1, s2, _⟩ := selectLoop_ok (by simpa using indexes_sorted h) hl
    refine ⟨l, m, ?_, largest_of_reference hr, s1, ?_⟩
    · unfold mainIndexes; rw [hr]; simp only [Res.bind]; rw [if_neg h0, hl]
    · intro i
      rw [s2]
      simp only [List.not_mem_nil, false_or, mem_indexes, weighted_iff]
      constructor
      · rintro ⟨a, b⟩; exact ⟨h0, a, b⟩
      · rintro ⟨_, a, b⟩; exact ⟨a, b⟩

/-- C33: with a chosen main harmonic the same holds relative to its weighted amplitude. -/
theorem main_exact_chosen (rt : K → K) {h : Harmonics K} {threshold : K} {k : Nat} {l : List Nat}
    (hl : mainIndexes rt h threshold (some k) = .ok l) :
    ∃ m, Weighted rt h k m ∧ l.Pairwise (· < ·) ∧
      ∀ i, i ∈ l ↔ m ≠ 0 ∧ Proper h i ∧ ∃ w, Weighted rt h i w ∧ m * threshold ≤ w := by
  unfold mainIndexes at hl
  rw [bind_ok] at hl
  obtain ⟨m, hm, hl⟩ := hl
  refine ⟨m, weighted_iff.mp hm, ?_⟩
  by_cases h0 : m = 0
  · rw [if_pos h0] at hl
    cases hl
    exact ⟨List.Pairwise.nil, fun i => by simp [h0]⟩
  · rw [if_neg h0] at hl
    obtain ⟨s1, s2, _⟩ := selectLoop_ok (by simpa using indexes_sorted h) hl
    refine ⟨s1, fun i => ?_⟩
    rw [s2]
    simp only [List.not_mem_nil, false_or, mem_indexes, weighted_iff]
    constructor
    · rintro ⟨a, b⟩; exact ⟨h0, a, b⟩
    · rintro ⟨_, a, b⟩; exact ⟨a, b⟩

/-- C33: never the DC term, never out of range, increasing, no duplicates. -/
theorem main_proper {rt : K → K} {h : Harmonics K} {threshold : K} {main : Option Nat} {l : List Nat}
    (hl : mainIndexes rt h threshold main = .ok l) :
    l.Pairwise (· < ·) ∧ ∀ i ∈ l, i ≠ 0 ∧ i < h.amplitudes.length := by
  unfold mainIndexes at hl
  rw [bind_ok] at hl
  obtain ⟨m, hm, hl⟩ := hl
  split at hl
  · cases hl; exact ⟨List.Pairwise.nil, by simp⟩
  · obtain ⟨s1, s2, _⟩ := selectLoop_ok (by simpa using indexes_sorted h) hl
    refine ⟨s1, fun i hi => ?_⟩
    rcases (s2 i).mp hi with hi | ⟨hi, _⟩
    · cases hi
    · rw [mem_indexes] at hi; omega

/-- C33: a harmonic with the largest weighted amplitude is included whenever that is positive and the threshold
is at most one. -/
theorem dominant_included {rt : K → K} {h : Harmonics K} (hc : Complete h) {threshold : K} (ht : threshold ≤ 1)
    {i : Nat} {m : K} (hp : Proper h i) (hw : Weighted rt h i m) (hm : Largest rt h m) (hpos : 0 < m) :
    ∃ l, mainIndexes rt h threshold none = .ok l ∧ i ∈ l := by
  obtain ⟨l, m', hl, hm', _, hiff⟩ := main_exact rt hc threshold
  have e := largest_unique hm hm'
  subst e
  refine ⟨l, hl, (hiff i).mpr ⟨ne_of_gt hpos, hp, m, hw, ?_⟩⟩
  calc m * threshold ≤ m * 1 := mul_le_mul_of_nonneg_left ht hpos.le
    _ = m := mul_one m

/-- C33: lowering the threshold never loses an index. -/
theorem threshold_monotone {rt : K → K} {h : Harmonics K} (hc : Complete h) {t t' : K} (ht : t' ≤ t)
    {l : List Nat} (hl : mainIndexes rt h t none = .ok l) :
    ∃ l', mainIndexes rt h t' none = .ok l' ∧ ∀ i ∈ l, i ∈ l' := by
  obtain ⟨l1, m, h1, hm, _, hiff⟩ := main_exact rt hc t
  obtain ⟨l2, m', h2, hm', _, hiff'⟩ := main_exact rt hc t'
  have e := largest_unique hm hm'
  subst e
  rw [h1] at hl
  cases hl
  refine ⟨l2, h2, fun i hi => ?_⟩
  obtain ⟨h0, hp, w, hw, hle⟩ := (hiff i).mp hi
  exact (hiff' i).mpr ⟨h0, hp, w, hw, le_trans (mul_le_mul_of_nonneg_left ht hm.1) hle⟩

/-- C33: the selection reads out of range exactly when frequencies are missing. -/
theorem main_ub_iff (rt : K → K) (h : Harmonics K) (threshold : K) :
    mainIndexes rt h threshold none = .ub ↔ ¬ Complete h := by
  constructor
  · intro hu hc
    obtain ⟨l, m, hl, _⟩ := main_exact rt hc threshold
    rw [hl] at hu; cases hu
  · intro hc
    have : maxLoop rt h (indexes h) 0 = .ub := by
      have key : ∀ (is : List Nat) (acc : K), (¬ ∀ i ∈ is, ∃ w, weight rt h i = .ok w) →
          maxLoop rt h is acc = .ub := by
        intro is
        induction is with
        | nil => intro acc hn; exact absurd (by simp) hn
        | cons i is ih =>
          intro acc hn
          rcases weight_cases rt h i with hu | ⟨w, hw⟩
          · simp only [maxLoop, hu, Res.bind]
          · simp only [maxLoop, hw, Res.bind]
            apply ih
            intro hall
            apply hn
            intro j hj
            rcases List.mem_cons.mp hj with rfl | hj
            · exact ⟨w, hw⟩
            · exact hall j hj
      exact key _ _ (fun hh => hc (complete_iff.mp hh))
    unfold mainIndexes reference
    rw [this]
    rfl

/-- C33: the indexes of a whole operating point are those of its windings, without duplicates. -/
theorem operating_point_union {rt : K → K} {op : List (Excitation K)} {t : K} {s : Signal} {main : Option Nat}
    {l : List Nat} (hl : ofOperatingPoint rt op t s main = .ok l) :
    l.Nodup ∧ ∀ i, i ∈ l ↔ ∃ e ∈ op, ∃ le, ofExcitation rt e t s main = .ok le ∧ i ∈ le := by
  have key : ∀ (op : List (Excitation K)) (acc : List Nat), acc.Nodup →
      windingsLoop rt t s main op acc = .ok l →
      l.Nodup ∧ ∀ i, i ∈ l ↔ i ∈ acc ∨ ∃ e ∈ op, ∃ le, ofExcitation rt e t s main = .ok le ∧ i ∈ le := by
    intro op
    induction op with
    | nil => intro acc hn h; cases h; exact ⟨hn, by simp⟩
    | cons e es ih =>
      intro acc hn h
      simp only [windingsLoop, bind_ok] at h
      obtain ⟨le, he, h⟩ := h
      obtain ⟨h1, h2⟩ := ih _ (nodup_merge hn) h
      refine ⟨h1, fun i => ?_⟩
      rw [h2, mem_merge]
      constructor
      · rintro ((hi | hi) | ⟨e', he', l', hl', hi⟩)
        · exact Or.inl hi
        · exact Or.inr ⟨e, List.mem_cons_self, le, he, hi⟩
        · exact Or.inr ⟨e', List.mem_cons_of_mem _ he', l', hl', hi⟩
      · rintro (hi | ⟨e', he', l', hl', hi⟩)
        · exact Or.inl (Or.inl hi)
        · rcases List.mem_cons.mp he' with rfl | he'
          · rw [he] at hl'; cases hl'; exact Or.inl (Or.inr hi)
          · exact Or.inr ⟨e', he', l', hl', hi⟩
  obtain ⟨h1, h2⟩ := key op [] List.nodup_nil hl
  exact ⟨h1, fun i => by rw [h2]; simp⟩

/-- C33: the common indexes of an operating point are those of current, voltage and magnetising current. -/
theorem common_union {rt : K → K} {op : List (Excitation K)} {t : K} {main : Option Nat} {l : List Nat}
    (hl : operatingPointIndexes rt op t main = .ok l) :
    l.Nodup ∧ ∀ i, i ∈ l ↔ ∃ s ls, (s = .current ∨ s = .voltage ∨ s = .magnetizing) ∧
      ofOperatingPoint rt op t s main = .ok ls ∧ i ∈ ls := by
  unfold operatingPointIndexes at hl
  simp only [bind_ok] at hl
  obtain ⟨c, hc, v, hv, m, hm, hl⟩ := hl
  cases hl
  refine ⟨nodup_merge (nodup_merge (nodup_merge List.nodup_nil)), fun i => ?_⟩
  simp only [mem_merge, List.not_mem_nil, false_or]
  constructor
  · rintro ((h | h) | h)
    · exact ⟨_, _, Or.inl rfl, hc, h⟩
    · exact ⟨_, _, Or.inr (Or.inl rfl), hv, h⟩
    · exact ⟨_, _, Or.inr (Or.inr rfl), hm, h⟩
  · rintro ⟨s, ls, rfl | rfl | rfl, h1, h2⟩
    · rw [hc] at h1; cases h1; exact Or.inl (Or.inl h2)
    · rw [hv] at h1; cases h1; exact Or.inl (Or.inr h2)
    · rw [hm] at h1; cases h1; exact Or.inr h2

/-- C33: the common indexes of one excitation are those of current, voltage and magnetising current. -/
theorem excitation_union {rt : K → K} {e : Excitation K} {t : K} {main : Option Nat} {l : List Nat}
    (hl : excitationIndexes rt e t main = .ok l) :
    l.Nodup ∧ ∀ i, i ∈ l ↔ ∃ s ls, (s = .current ∨ s = .voltage ∨ s = .magnetizing) ∧
      ofExcitation rt e t s main = .ok ls ∧ i ∈ ls := by
  unfold excitationIndexes at hl
  simp only [bind_ok] at hl
  obtain ⟨c, hc, v, hv, m, hm, hl⟩ := hl
  cases hl
  refine ⟨nodup_merge (nodup_merge (nodup_merge List.nodup_nil)), fun i => ?_⟩
  simp only [mem_merge, List.not_mem_nil, false_or]
  constructor
  · rintro ((h | h) | h)
    · exact ⟨_, _, Or.inl rfl, hc, h⟩
    · exact ⟨_, _, Or.inr (Or.inl rfl), hv, h⟩
    · exact ⟨_, _, Or.inr (Or.inr rfl), hm, h⟩
  · rintro ⟨s, ls, rfl | rfl | rfl, h1, h2⟩
    · rw [hc] at h1; cases h1; exact Or.inl (Or.inl h2)
    · rw [hv] at h1; cases h1; exact Or.inl (Or.inr h2)
    · rw [hm] at h1; cases h1; exact Or.inr h2

/-- A spectrum with a DC term larger than every harmonic; the dominant harmonic and one more pass. -/
example : mainIndexes (K := ℚ) id ⟨[9, 1, 3, 2], [0, 1, 2, 3]⟩ (1/2) none = .ok [2, 3] ∧
    Complete (K := ℚ) ⟨[9, 1, 3, 2], [0, 1, 2, 3]⟩ := by
  unfold Complete
  decide +kernel

/-- C33, what fails for several windings: the merged indexes are not in increasing order. -/
theorem operating_point_not_sorted :
    let h1 : Harmonics ℚ := ⟨[0, 0, 1], [0, 1, 2]⟩
    let h2 : Harmonics ℚ := ⟨[0, 1, 0], [0, 1, 2]⟩
    ofOperatingPoint id [⟨some h1, none, none⟩, ⟨some h2, none, none⟩] (1/2) .current none = .ok [2, 1] := by
  decide +kernel

/-- C33, the two overloads disagree on a spectrum without AC: one selects nothing, the other everything. -/
theorem overloads_disagree :
    mainIndexes (K := ℚ) id ⟨[1, 0, 0], [0, 1, 2]⟩ (1/2) none = .ok [] ∧
    mainIndexesOfHarmonics (K := ℚ) id ⟨[1, 0, 0], [0, 1, 2]⟩ (1/2) none = .ok [1, 2] := by
  decide +kernel

/-- C33: where the reference is not zero the two overloads agree. -/
theorem overloads_agree {rt : K → K} {h : Harmonics K} {t m : K} {main : Option Nat}
    (hm : reference rt h main = .ok m) (h0 : m ≠ 0) :
    mainIndexesOfHarmonics rt h t main = mainIndexes rt h t main := by
  unfold mainIndexesOfHarmonics mainIndexes
  rw [hm]
  simp only [Res.bind]
  rw [if_neg h0]

/-- C33, what fails for a threshold above one: nothing is selected although there is a dominant harmonic. -/
theorem nothing_above_one :
    mainIndexes (K := ℚ) id ⟨[0, 3], [0, 1]⟩ 2 none = .ok [] := by decide +kernel

end Verif.Harmonics
