import Verif.StrayCapacitance.Lemmas
import Verif.StrayCapacitance.VoltageProps
import Mathlib.Tactic.LinearCombination

/-!
# Capacitances among turns and among windings

C144 and C145.
-/

set_option linter.unusedSectionVars false

namespace Verif.StrayCapacitance

open Finset (range)

variable {K : Type} [Field K] [LinearOrder K] [IsStrictOrderedRing K]

/-! ## Among turns -/

theorem mem_nearPairs {near : Nat → List Nat} {n a b : Nat} : (a, b) ∈ nearPairs near n ↔ a < n ∧ b ∈ near a := by
  unfold nearPairs
  rw [List.mem_flatMap]
  constructor
  · rintro ⟨x, hx, h⟩
    obtain ⟨y, hy, he⟩ := List.mem_map.mp h
    injection he with h1 h2
    subst h1; subst h2
    exact ⟨List.mem_range.mp hx, hy⟩
  · rintro ⟨h1, h2⟩
    exact ⟨a, List.mem_range.mpr h1, List.mem_map.mpr ⟨b, h2, rfl⟩⟩

/-- C144: the capacitance reported for two turns does not depend on their order. -/
theorem among_turns_symmetric (near : Nat → List Nat) (fixed : Nat → Nat → K) (n a b : Nat) :
    amongTurns near fixed n a b = amongTurns near fixed n b a := by
  unfold amongTurns
  simp only []
  by_cases h1 : (a, b) ∈ visit id [] (nearPairs near n)
  · by_cases h2 : (b, a) ∈ visit id [] (nearPairs near n)
    · have := visit_unique h1 h2 (Or.inr rfl)
      injection this with h3 h4
      subst h3
      rfl
    · rw [if_pos h1, if_neg h2, if_pos h1]
  · by_cases h2 : (b, a) ∈ visit id [] (nearPairs near n)
    · rw [if_neg h1, if_pos h2, if_pos h2]
    · rw [if_neg h1, if_neg h2, if_neg h2, if_neg h1]

/-- C144: two turns have a capacitance exactly if one of them is found next to the other. -/
theorem among_turns_iff (near : Nat → List Nat) (fixed : Nat → Nat → K) (n a b : Nat) :
    (∃ x, amongTurns near fixed n a b = some x) ↔ (a < n ∧ b ∈ near a) ∨ (b < n ∧ a ∈ near b) := by
  unfold amongTurns
  simp only []
  have hs := visit_sublist (key := (id : Nat × Nat → Nat × Nat)) [] (nearPairs near n)
  constructor
  · rintro ⟨x, hx⟩
    by_cases h1 : (a, b) ∈ visit id [] (nearPairs near n)
    · exact Or.inl (mem_nearPairs.mp (hs.subset h1))
    · by_cases h2 : (b, a) ∈ visit id [] (nearPairs near n)
      · exact Or.inr (mem_nearPairs.mp (hs.subset h2))
      · rw [if_neg h1, if_neg h2] at hx
        cases hx
  · intro h
    have hk : (a, b) ∈ visit id [] (nearPairs near n) ∨ (b, a) ∈ visit id [] (nearPairs near n) := by
      rcases h with h | h
      · rcases visit_covers (key := (id : Nat × Nat → Nat × Nat)) [] _ (mem_nearPairs.mpr h) with h | ⟨c, hc, h | h⟩
        · simp at h
        · left; simp only [id] at h; rwa [← h]
        · right; simp only [id, Prod.swap_prod_mk] at h; rwa [← h]
      · rcases visit_covers (key := (id : Nat × Nat → Nat × Nat)) [] _ (mem_nearPairs.mpr h) with h | ⟨c, hc, h | h⟩
        · simp at h
        · right; simp only [id] at h; rwa [← h]
        · left; simp only [id, Prod.swap_prod_mk] at h; rwa [← h]
    by_cases h1 : (a, b) ∈ visit id [] (nearPairs near n)
    · exact ⟨_, by rw [if_pos h1]⟩
    · rcases hk with h2 | h2
      · exact absurd h2 h1
      · exact ⟨_, by rw [if_neg h1, if_pos h2]⟩

/-- C144: the value is the one computed starting from the turn which comes first, if the other is found next to it. -/
theorem among_turns_value (near : Nat → List Nat) (fixed : Nat → Nat → K) {n a b : Nat} (hab : a < b) (hn : a < n)
    (hb : b ∈ near a) : amongTurns near fixed n a b = some (fixed a b) := by
  unfold amongTurns
  simp only []
  rw [if_pos]
  have hsplit : nearPairs near n = nearPairs near (a + 1) ++
      ((List.range' (a + 1) (n - (a + 1))).flatMap fun x => (near x).map fun y => (x, y)) := by
    unfold nearPairs
    rw [← List.flatMap_append, List.range_eq_range', List.range_eq_range']
    congr 1
    have := List.range'_append (s := 0) (m := a + 1) (n := n - (a + 1)) (step := 1)
    simp only [Nat.zero_add, Nat.one_mul] at this
    rw [this]
    congr 1
    omega
  rw [hsplit, visit_append, List.mem_append]
  left
  have hs := visit_sublist (key := (id : Nat × Nat → Nat × Nat)) [] (nearPairs near (a + 1))
  rcases visit_covers (key := (id : Nat × Nat → Nat × Nat)) [] _
    (mem_nearPairs.mpr ⟨Nat.lt_succ_self a, hb⟩) with h | ⟨c, hc, h | h⟩
  · simp at h
  · simp only [id] at h; rwa [← h]
  · exfalso
    simp only [id, Prod.swap_prod_mk] at h
    rw [h] at hc
    have := (mem_nearPairs.mp (hs.subset hc)).1
    omega

/-- No turn is next to itself (StrayCapacitance.cpp 85-88), so none has a capacitance to itself. -/
theorem among_turns_self {near : Nat → List Nat} (hself : ∀ a, a ∉ near a) (fixed : Nat → Nat → K) (n a : Nat) :
    amongTurns near fixed n a a = none := by
  cases h : amongTurns near fixed n a a with
  | none => rfl
  | some x =>
    rcases (among_turns_iff near fixed n a a).mp ⟨x, h⟩ with h | h <;> exact absurd h.2 (hself a)

example : (5 : Nat) ∈ (fun a => [a + 1] : Nat → List Nat) 4 := by decide

/-! ## Lemmas on an iteration -/

theorem mem_coupled {c : Coil K} {first second : String} {q : (Nat × Nat) × K} (h : q ∈ coupled c first second) :
    q.1.1 ∈ turnsOf c.turns first ∧ q.1.2 ∈ turnsOf c.turns second ∧ c.cap q.1.1 q.1.2 = some q.2 := by
  unfold coupled at h
  rw [List.mem_filterMap] at h
  obtain ⟨p, hp, h⟩ := h
  have hp2 := (visit_sublist (key := (id : Nat × Nat → Nat × Nat)) _ _).subset hp
  rw [List.mem_flatMap] at hp2
  obtain ⟨a, ha, h3⟩ := hp2
  obtain ⟨b, hb, rfl⟩ := List.mem_map.mp h3
  cases hc : c.cap a b with
  | none => simp [hc] at h
  | some x =>
    simp only [hc, Option.some.injEq] at h
    rw [← h]
    exact ⟨ha, hb, hc⟩

theorem coupled_of_ne {c : Coil K} {first second : String} (hne : first ≠ second) {a b : Nat} {x : K}
    (ha : a ∈ turnsOf c.turns first) (hb : b ∈ turnsOf c.turns second) (hx : c.cap a b = some x) :
    ((a, b), x) ∈ coupled c first second := by
  unfold coupled turnPairs
  rw [visit_disjoint_product (turnsOf_pairwise _ _) (turnsOf_pairwise _ _) (turnsOf_disjoint hne), List.mem_filterMap]
  refine ⟨(a, b), ?_, by simp [hx]⟩
  rw [List.mem_flatMap]
  exact ⟨a, ha, List.mem_map.mpr ⟨b, hb, rfl⟩⟩

theorem coupled_of_le {c : Coil K} {name : String} {a b : Nat} {x : K}
    (ha : a ∈ turnsOf c.turns name) (hb : b ∈ turnsOf c.turns name) (hle : a ≤ b) (hx : c.cap a b = some x) :
    ((a, b), x) ∈ coupled c name name := by
  unfold coupled turnPairs
  rw [visit_self_product (turnsOf_pairwise _ _), List.mem_filterMap]
  refine ⟨(a, b), ?_, by simp [hx]⟩
  rw [List.mem_filter, List.mem_flatMap]
  exact ⟨⟨a, ha, List.mem_map.mpr ⟨b, hb, rfl⟩⟩, by simpa using hle⟩

/-- The potential of the third node, whatever the energy. -/
def node (c : Coil K) (first second : Winding) : K :=
  match max1 c first.name, min2 c first.name second.name with
  | some hi, some lo => abs ((first.turns : K) / (second.turns : K) * hi + abs lo) / 2
  | _, _ => 0

theorem thirdNode_eq {energy drop ratio hi lo w : K} (h : thirdNode (multipole energy drop ratio) hi lo = some w) :
    w = abs (ratio * hi + abs lo) / 2 := by
  unfold thirdNode multipole at h
  by_cases hd : drop = 0
  · simp [hd] at h
  · simp only [if_neg hd] at h
    split at h
    · cases h
    · rename_i h33
      injection h with h
      rw [← h]
      have hc : energy * 2 / drop ^ 2 ≠ 0 := by
        intro h0
        apply h33
        rw [h0]
        ring
      generalize energy * 2 / drop ^ 2 = c0 at *
      have : (-(2 * ratio * (c0 / 6) * hi + 2 * (c0 / 6) * abs lo)) / (c0 / 3 + c0 / 6 + c0 / 6) =
          -((ratio * hi + abs lo) / 2) := by
        field_simp
        ring
      rw [this, abs_neg, abs_div, abs_two]

theorem thirdNode_of_energy {energy drop ratio hi lo : K} (he : energy ≠ 0) (hd : drop ≠ 0) :
    thirdNode (multipole energy drop ratio) hi lo = some (abs (ratio * hi + abs lo) / 2) := by
  cases h : thirdNode (multipole energy drop ratio) hi lo with
  | some w => rw [thirdNode_eq h]
  | none =>
    exfalso
    unfold thirdNode multipole at h
    simp only [if_neg hd] at h
    split at h
    · rename_i h33
      have : energy * 2 / drop ^ 2 ≠ 0 := by
        apply div_ne_zero
        · exact mul_ne_zero he two_ne_zero
        · exact pow_ne_zero _ hd
      apply this
      have h2 : energy * 2 / drop ^ 2 / 3 + energy * 2 / drop ^ 2 / 6 + energy * 2 / drop ^ 2 / 6 =
          energy * 2 / drop ^ 2 * (2 / 3) := by ring
      rw [h2] at h33
      rcases mul_eq_zero.mp h33 with h | h
      · exact h
      · norm_num at h
    · cases h

theorem iterate_next {c : Coil K} {first second : Winding} {v w : K} {it : Iter K} (h : iterate c first second v = .ok it)
    (hw : it.v3 = some w) : w = v ∨ w = node c first second := by
  unfold iterate at h
  split at h
  · rename_i hi lo e1 e2 e3
    simp only [] at h
    have key : it.v3 = (if first.name ≠ second.name then
        thirdNode (multipole (energyOf c first.name second.name v) (hi - lo + v)
          ((first.turns : K) / (second.turns : K))) hi lo else some v) := by
      split at h
      · injection h with h; rw [← h]
      · split at h
        · cases h
        · injection h with h; rw [← h]
    rw [key] at hw
    by_cases hn : first.name ≠ second.name
    · rw [if_pos hn] at hw
      right
      rw [thirdNode_eq hw, node, e2, e3]
    · rw [if_neg hn] at hw
      left
      injection hw with hw
      exact hw.symm
  · injection h with h
    rw [← h] at hw
    left
    injection hw with hw
    exact hw.symm

theorem again_same (v : K) : again v (some v) = false := by
  unfold again
  simp only [sub_self, abs_zero, gt_iff_lt, decide_eq_false_iff_not, not_lt]
  have : (0 : K) ≤ max |v| dblMin := le_trans (abs_nonneg v) (le_max_left _ _)
  positivity

/-- C145: the search for the potential of the third node ends: after two iterations it has settled, whatever the coil and its
voltages. -/
theorem loop_ends (c : Coil K) (first second : Winding) :
    ∀ fuel, 2 ≤ fuel → loop c first second fuel 0 = some (pairCap c first second) := by
  have key : ∃ r, ∀ fuel, 2 ≤ fuel → loop c first second fuel 0 = some r := by
    cases h1 : iterate c first second 0 with
    | error e =>
      refine ⟨.error e, ?_⟩
      intro fuel hf
      obtain ⟨n, rfl⟩ := Nat.exists_eq_add_of_le' hf
      simp [loop, h1]
    | ok it =>
      cases h2 : it.v3 with
      | none =>
        refine ⟨.ok it.cap, ?_⟩
        intro fuel hf
        obtain ⟨n, rfl⟩ := Nat.exists_eq_add_of_le' hf
        simp [loop, h1, h2]
      | some w =>
        by_cases h3 : again 0 (some w) = true
        · have hw : w = node c first second := by
            rcases iterate_next h1 h2 with h | h
            · rw [h, again_same] at h3
              cases h3
            · exact h
          cases h4 : iterate c first second w with
          | error e =>
            refine ⟨.error e, ?_⟩
            intro fuel hf
            obtain ⟨n, rfl⟩ := Nat.exists_eq_add_of_le' hf
            simp [loop, h1, h2, h3, h4]
          | ok it2 =>
            cases h5 : it2.v3 with
            | none =>
              refine ⟨.ok it2.cap, ?_⟩
              intro fuel hf
              obtain ⟨n, rfl⟩ := Nat.exists_eq_add_of_le' hf
              simp [loop, h1, h2, h3, h4, h5]
            | some w2 =>
              have hw2 : w2 = w := by
                rcases iterate_next h4 h5 with h | h
                · exact h
                · rw [h, hw]
              refine ⟨.ok it2.cap, ?_⟩
              intro fuel hf
              obtain ⟨n, rfl⟩ := Nat.exists_eq_add_of_le' hf
              simp [loop, h1, h2, h3, h4, h5, hw2, again_same]
        · refine ⟨.ok it.cap, ?_⟩
          intro fuel hf
          obtain ⟨n, rfl⟩ := Nat.exists_eq_add_of_le' hf
          simp [loop, h1, h2, h3]
  obtain ⟨r, hr⟩ := key
  intro fuel hf
  rw [hr fuel hf]
  unfold pairCap
  rw [hr 2 (le_refl _)]

/-! ## Specification of the capacitances of windings -/

namespace Spec

/-- The largest voltage of the turns of a winding. -/
def Top (c : Coil K) (name : String) (m : K) : Prop :=
  (∃ i, IsOf c.turns name i ∧ c.volt i = m) ∧ ∀ i, IsOf c.turns name i → c.volt i ≤ m

/-- The smallest one. -/
def Bottom (c : Coil K) (name : String) (m : K) : Prop :=
  (∃ i, IsOf c.turns name i ∧ c.volt i = m) ∧ ∀ i, IsOf c.turns name i → m ≤ c.volt i

/-- Capacitances between turns are not negative. -/
def NonNegative (c : Coil K) : Prop := ∀ a b x, c.cap a b = some x → 0 ≤ x

/-- A turn of one winding is next to one of the other. -/
def Adjacent (c : Coil K) (first second : String) : Prop :=
  ∃ a b x, IsOf c.turns first a ∧ IsOf c.turns second b ∧ c.cap a b = some x

/-- Energy of the elements of the turns of a winding to the core, if there is a core. -/
def coreEnergy (c : Coil K) (name : String) : K :=
  match c.core with
  | none => 0
  | some toCore => selfCoreEnergy toCore c.volt name c.turns

end Spec

theorem isOf_iff {turns : List Turn} {name : String} {i : Nat} : Spec.IsOf turns name i ↔ i ∈ turnsOf turns name :=
  mem_turnsOf.symm

theorem max1_of_top {c : Coil K} {name : String} {m : K} (h : Spec.Top c name m) : max1 c name = some m := by
  unfold max1
  rw [maxOf_eq_some]
  obtain ⟨⟨i, hi, hv⟩, h2⟩ := h
  refine ⟨List.mem_map.mpr ⟨i, isOf_iff.mp hi, hv⟩, ?_⟩
  intro y hy
  obtain ⟨j, hj, rfl⟩ := List.mem_map.mp hy
  exact h2 j (isOf_iff.mpr hj)

theorem min2_of_top {c : Coil K} {first second : String} (hne : first ≠ second) {m : K} (h : Spec.Top c second m) :
    min2 c first second = some (-m) := by
  unfold min2
  rw [minOf_eq_some]
  obtain ⟨⟨i, hi, hv⟩, h2⟩ := h
  refine ⟨List.mem_map.mpr ⟨i, isOf_iff.mp hi, by simp [secondVolt, hne, hv]⟩, ?_⟩
  intro y hy
  obtain ⟨j, hj, rfl⟩ := List.mem_map.mp hy
  rw [secondVolt, if_pos hne]
  exact neg_le_neg (h2 j (isOf_iff.mpr hj))

theorem min2_of_bottom {c : Coil K} {name : String} {m : K} (h : Spec.Bottom c name m) : min2 c name name = some m := by
  unfold min2
  rw [minOf_eq_some]
  obtain ⟨⟨i, hi, hv⟩, h2⟩ := h
  refine ⟨List.mem_map.mpr ⟨i, isOf_iff.mp hi, by simp [secondVolt, hv]⟩, ?_⟩
  intro y hy
  obtain ⟨j, hj, rfl⟩ := List.mem_map.mp hy
  simp only [secondVolt, ne_eq, not_true_eq_false, if_false]
  exact h2 j (isOf_iff.mpr hj)

theorem exists_top {c : Coil K} {name : String} (h : ∃ i, Spec.IsOf c.turns name i) : ∃ m, Spec.Top c name m := by
  obtain ⟨i, hi⟩ := h
  obtain ⟨m, h1, h2⟩ := exists_max (l := (turnsOf c.turns name).map c.volt)
    (by intro h; rw [List.map_eq_nil_iff] at h; rw [isOf_iff, h] at hi; cases hi)
  obtain ⟨j, hj, hv⟩ := List.mem_map.mp h1
  exact ⟨m, ⟨j, isOf_iff.mpr hj, hv⟩, fun k hk => h2 _ (List.mem_map_of_mem (isOf_iff.mp hk))⟩

theorem exists_bottom {c : Coil K} {name : String} (h : ∃ i, Spec.IsOf c.turns name i) : ∃ m, Spec.Bottom c name m := by
  obtain ⟨i, hi⟩ := h
  obtain ⟨m, h1, h2⟩ := exists_min (l := (turnsOf c.turns name).map c.volt)
    (by intro h; rw [List.map_eq_nil_iff] at h; rw [isOf_iff, h] at hi; cases hi)
  obtain ⟨j, hj, hv⟩ := List.mem_map.mp h1
  exact ⟨m, ⟨j, isOf_iff.mpr hj, hv⟩, fun k hk => h2 _ (List.mem_map_of_mem (isOf_iff.mp hk))⟩

theorem iterate_of_coupled {c : Coil K} {first second : Winding} {hi lo : K}
    (hc : coupled c first.name second.name ≠ []) (h1 : max1 c first.name = some hi)
    (h2 : min2 c first.name second.name = some lo) (v : K) :
    iterate c first second v =
      (if energyOf c first.name second.name v = 0 then
        .ok { cap := 0, v3 := if first.name ≠ second.name then
          thirdNode (multipole (energyOf c first.name second.name v) (hi - lo + v)
            ((first.turns : K) / (second.turns : K))) hi lo else some v }
      else if hi - lo + v = 0 then .error .energyNoDrop
      else .ok { cap := energyOf c first.name second.name v * 2 / (hi - lo + v) ^ 2,
                 v3 := if first.name ≠ second.name then
          thirdNode (multipole (energyOf c first.name second.name v) (hi - lo + v)
            ((first.turns : K) / (second.turns : K))) hi lo else some v }) := by
  obtain ⟨q, qs, hq⟩ := List.exists_cons_of_ne_nil hc
  unfold iterate
  rw [hq, h1, h2]

/-- The energy of two different windings. -/
theorem energyOf_between {c : Coil K} {first second : String} (hne : first ≠ second) (v : K) :
    energyOf c first second v =
      1 / 2 * Spec.over c first second fun a b => Spec.capacitance c a b * (v + c.volt a + c.volt b) ^ 2 := by
  unfold energyOf
  have hz : energyOf c first second v = pairEnergy c first second v := by
    unfold energyOf
    cases c.core with
    | none => simp
    | some t => simp [hne]
  unfold energyOf at hz
  rw [hz, ← sum_between hne fun a b => (v + c.volt a + c.volt b) ^ 2]
  unfold pairEnergy
  rw [← List.sum_map_mul_left]
  congr 1
  apply List.map_congr_left
  intro q _
  simp only [dropOf, secondVolt, if_pos hne]
  ring

/-- The energy of a winding and itself. -/
theorem energyOf_within {c : Coil K} {name : String} (hself : ∀ a, c.cap a a = none) :
    energyOf c name name 0 =
      1 / 2 * (Spec.overPairs c name fun a b => Spec.capacitance c a b * (c.volt a - c.volt b) ^ 2) +
        Spec.coreEnergy c name := by
  unfold energyOf Spec.coreEnergy
  congr 1
  · rw [← sum_within hself fun a b => (c.volt a - c.volt b) ^ 2]
    unfold pairEnergy
    rw [← List.sum_map_mul_left]
    congr 1
    apply List.map_congr_left
    intro q _
    simp only [dropOf, secondVolt, ne_eq, not_true_eq_false, if_false]
    ring
  · cases c.core <;> simp

theorem capacitance_nonneg {c : Coil K} (h : Spec.NonNegative c) (a b : Nat) : 0 ≤ Spec.capacitance c a b := by
  unfold Spec.capacitance
  cases hc : c.cap a b with
  | none => simp
  | some x => exact h a b x hc

theorem over_nonneg {c : Coil K} {first second : String} {f : Nat → Nat → K} (h : ∀ a b, 0 ≤ f a b) :
    0 ≤ Spec.over c first second f := by
  apply Finset.sum_nonneg
  intro a _
  apply Finset.sum_nonneg
  intro b _
  split
  · exact h a b
  · exact le_refl _

theorem over_le {c : Coil K} {first second : String} {f g : Nat → Nat → K}
    (h : ∀ a b, Spec.IsOf c.turns first a → Spec.IsOf c.turns second b → f a b ≤ g a b) :
    Spec.over c first second f ≤ Spec.over c first second g := by
  apply Finset.sum_le_sum
  intro a _
  apply Finset.sum_le_sum
  intro b _
  split
  · rename_i hh
    exact h a b hh.1 hh.2
  · exact le_refl _

theorem overPairs_le {c : Coil K} {name : String} {f g : Nat → Nat → K}
    (h : ∀ a b, Spec.IsOf c.turns name a → Spec.IsOf c.turns name b → f a b ≤ g a b) :
    Spec.overPairs c name f ≤ Spec.overPairs c name g := by
  apply Finset.sum_le_sum
  intro a _
  apply Finset.sum_le_sum
  intro b _
  split
  · rename_i hh
    exact h a b hh.1 hh.2.1
  · exact le_refl _

theorem over_mul (c : Coil K) (first second : String) (f : Nat → Nat → K) (s : K) :
    Spec.over c first second (fun a b => f a b * s) = Spec.over c first second f * s := by
  unfold Spec.over
  rw [Finset.sum_mul]
  apply Finset.sum_congr rfl
  intro a _
  rw [Finset.sum_mul]
  apply Finset.sum_congr rfl
  intro b _
  split <;> simp

theorem overPairs_mul (c : Coil K) (name : String) (f : Nat → Nat → K) (s : K) :
    Spec.overPairs c name (fun a b => f a b * s) = Spec.overPairs c name f * s := by
  unfold Spec.overPairs
  rw [Finset.sum_mul]
  apply Finset.sum_congr rfl
  intro a _
  rw [Finset.sum_mul]
  apply Finset.sum_congr rfl
  intro b _
  split <;> simp

theorem over_pos {c : Coil K} {first second : String} {f : Nat → Nat → K} (h : ∀ a b, 0 ≤ f a b) {a b : Nat}
    (ha : Spec.IsOf c.turns first a) (hb : Spec.IsOf c.turns second b) (hf : 0 < f a b) :
    0 < Spec.over c first second f := by
  have lt : ∀ {name : String} {i : Nat}, Spec.IsOf c.turns name i → i ∈ range c.turns.length := by
    rintro name i ⟨t, ht, -⟩
    rw [Finset.mem_range]
    by_contra hn
    rw [List.getElem?_eq_none (by omega)] at ht
    cases ht
  unfold Spec.over
  apply Finset.sum_pos'
  · intro x _
    apply Finset.sum_nonneg
    intro y _
    split
    · exact h x y
    · exact le_refl _
  · refine ⟨a, lt ha, ?_⟩
    apply Finset.sum_pos'
    · intro y _
      split
      · exact h a y
      · exact le_refl _
    · exact ⟨b, lt hb, by rw [if_pos ⟨ha, hb⟩]; exact hf⟩

theorem overPairs_nonneg {c : Coil K} {name : String} {f : Nat → Nat → K} (h : ∀ a b, 0 ≤ f a b) :
    0 ≤ Spec.overPairs c name f := by
  apply Finset.sum_nonneg
  intro a _
  apply Finset.sum_nonneg
  intro b _
  split
  · exact h a b
  · exact le_refl _

/-! ## Different windings -/

/-- C145: the capacitance of two windings which are next to each other is the one which stores, at the voltage between their ends,
the energy of all the pairs of turns. The second winding is taken with its sign changed and the first shifted by half of what the
voltages of both, the first multiplied by the ratio of turns, add up to. -/
theorem between_windings_value {c : Coil K} {first second : Winding} (hne : first.name ≠ second.name)
    (hv : ∀ i, 0 ≤ c.volt i) (hcap : Spec.NonNegative c) (ht1 : 0 < first.turns) (ht2 : 0 < second.turns)
    {m1 m2 : K} (h1 : Spec.Top c first.name m1) (h2 : Spec.Top c second.name m2)
    {a b : Nat} {x : K} (ha : Spec.IsOf c.turns first.name a) (hb : Spec.IsOf c.turns second.name b)
    (hx : c.cap a b = some x) (hx0 : 0 < x) (hab : 0 < c.volt a + c.volt b)
    {w : K} (hw : w = ((first.turns : K) / (second.turns : K) * m1 + m2) / 2) (hw0 : dblMin / 1000 < w) :
    pairCap c first second =
      .ok (Spec.over c first.name second.name (fun a b => Spec.capacitance c a b * (w + c.volt a + c.volt b) ^ 2) /
        (w + m1 + m2) ^ 2) := by
  have e1 := max1_of_top h1
  have e2 := min2_of_top hne h2
  have hc : coupled c first.name second.name ≠ [] := by
    intro h
    have := coupled_of_ne hne (isOf_iff.mp ha) (isOf_iff.mp hb) hx
    rw [h] at this
    cases this
  have hm1 : c.volt a ≤ m1 := h1.2 a ha
  have hm2 : c.volt b ≤ m2 := h2.2 b hb
  have hva := hv a
  have hvb := hv b
  have hn1 : (0 : K) < (first.turns : K) := by exact_mod_cast ht1
  have hn2 : (0 : K) < (second.turns : K) := by exact_mod_cast ht2
  have hm1' : 0 ≤ m1 := by linarith
  have hm2' : 0 ≤ m2 := by linarith
  have hmin : (0 : K) < dblMin := by unfold dblMin; positivity
  have hwpos : 0 < w := by
    have : (0 : K) < dblMin / 1000 := by positivity
    linarith
  have en : ∀ v, 0 ≤ v → 0 < energyOf c first.name second.name v := by
    intro v hv0
    rw [energyOf_between hne]
    have : 0 < Spec.over c first.name second.name
        fun a b => Spec.capacitance c a b * (v + c.volt a + c.volt b) ^ 2 := by
      apply over_pos _ ha hb
      · have : 0 < v + c.volt a + c.volt b := by linarith
        rw [Spec.capacitance, hx]
        simp only [Option.getD_some]
        positivity
      · intro a b
        have := capacitance_nonneg hcap a b
        positivity
    linarith
  have hnode : abs ((first.turns : K) / (second.turns : K) * m1 + abs (-m2)) / 2 = w := by
    rw [abs_neg, abs_of_nonneg hm2', abs_of_nonneg, hw]
    positivity
  have it : ∀ v, 0 ≤ v → iterate c first second v =
      .ok { cap := energyOf c first.name second.name v * 2 / (m1 - -m2 + v) ^ 2, v3 := some w } := by
    intro v hv0
    have d : m1 - -m2 + v ≠ 0 := by
      have : 0 < m1 + m2 := by linarith
      rw [sub_neg_eq_add]
      linarith
    rw [iterate_of_coupled hc e1 e2, if_neg (ne_of_gt (en v hv0)), if_neg d, if_pos hne,
      thirdNode_of_energy (ne_of_gt (en v hv0)) d, hnode]
  have hag : again 0 (some w) = true := by
    unfold again
    simp only [zero_sub, abs_neg, abs_zero, gt_iff_lt, decide_eq_true_eq, abs_of_pos hwpos]
    rw [max_eq_right (le_of_lt hmin)]
    linarith
  have hr := loop_ends c first second 2 (le_refl _)
  have : loop c first second 2 0 = some (.ok (energyOf c first.name second.name w * 2 / (m1 - -m2 + w) ^ 2)) := by
    rw [loop, it 0 (le_refl _)]
    simp only [hag, if_true]
    rw [loop, it w (le_of_lt hwpos)]
    simp [again_same]
  rw [this] at hr
  injection hr with hr
  rw [← hr, energyOf_between hne]
  congr 1
  have : m1 - -m2 + w = w + m1 + m2 := by ring
  rw [this]
  congr 1
  ring

/-- C145: that capacitance is positive and no more than the capacitances between the turns of both windings together. -/
theorem between_windings_le {c : Coil K} {first second : Winding} (hne : first.name ≠ second.name)
    (hv : ∀ i, 0 ≤ c.volt i) (hcap : Spec.NonNegative c) (ht1 : 0 < first.turns) (ht2 : 0 < second.turns)
    {a b : Nat} {x : K} (ha : Spec.IsOf c.turns first.name a) (hb : Spec.IsOf c.turns second.name b)
    (hx : c.cap a b = some x) (hx0 : 0 < x) (hab : 0 < c.volt a + c.volt b)
    {m1 m2 : K} (h1 : Spec.Top c first.name m1) (h2 : Spec.Top c second.name m2)
    (hw0 : dblMin / 1000 < ((first.turns : K) / (second.turns : K) * m1 + m2) / 2) :
    ∃ r, pairCap c first second = .ok r ∧ 0 < r ∧ r ≤ Spec.over c first.name second.name (Spec.capacitance c) := by
  have hmin : (0 : K) < dblMin := by unfold dblMin; positivity
  have e := between_windings_value hne hv hcap ht1 ht2 h1 h2 ha hb hx hx0 hab rfl hw0
  have hwpos : 0 < ((first.turns : K) / (second.turns : K) * m1 + m2) / 2 := by
    have : (0 : K) < dblMin / 1000 := by positivity
    linarith
  generalize ((first.turns : K) / (second.turns : K) * m1 + m2) / 2 = w at *
  refine ⟨_, e, ?_, ?_⟩
  all_goals
    have hm1 : c.volt a ≤ m1 := h1.2 a ha
    have hm2 : c.volt b ≤ m2 := h2.2 b hb
    have hva := hv a
    have hvb := hv b
    have hd : 0 < w + m1 + m2 := by linarith
  · apply div_pos _ (by positivity)
    apply over_pos _ ha hb
    · have : 0 < w + c.volt a + c.volt b := by linarith
      rw [Spec.capacitance, hx]
      simp only [Option.getD_some]
      positivity
    · intro a b
      have := capacitance_nonneg hcap a b
      positivity
  · rw [div_le_iff₀ (by positivity), ← over_mul]
    apply over_le
    intro a b ha hb
    apply mul_le_mul_of_nonneg_left _ (capacitance_nonneg hcap a b)
    have q1 := h1.2 a ha
    have q2 := h2.2 b hb
    have q3 := hv a
    have q4 := hv b
    apply pow_le_pow_left₀ (by linarith)
    linarith

/-- C145: the voltages only matter by their proportions: multiplying all of them by a positive number changes nothing (as long as
neither is so small that the search stops at once). -/
theorem between_windings_scaled {c : Coil K} {first second : Winding} (hne : first.name ≠ second.name)
    (hv : ∀ i, 0 ≤ c.volt i) (hcap : Spec.NonNegative c) (ht1 : 0 < first.turns) (ht2 : 0 < second.turns)
    {a b : Nat} {x : K} (ha : Spec.IsOf c.turns first.name a) (hb : Spec.IsOf c.turns second.name b)
    (hx : c.cap a b = some x) (hx0 : 0 < x) (hab : 0 < c.volt a + c.volt b)
    {m1 m2 : K} (h1 : Spec.Top c first.name m1) (h2 : Spec.Top c second.name m2)
    (hw0 : dblMin / 1000 < ((first.turns : K) / (second.turns : K) * m1 + m2) / 2) {s : K} (hs : 0 < s)
    (hw1 : dblMin / 1000 < s * (((first.turns : K) / (second.turns : K) * m1 + m2) / 2)) :
    pairCap { c with volt := fun i => s * c.volt i } first second = pairCap c first second := by
  have e := between_windings_value hne hv hcap ht1 ht2 h1 h2 ha hb hx hx0 hab rfl hw0
  have t : ∀ {name : String} {m : K}, Spec.Top c name m → Spec.Top { c with volt := fun i => s * c.volt i } name (s * m) := by
    rintro name m ⟨⟨i, hi, hm⟩, h⟩
    exact ⟨⟨i, hi, by simp only []; rw [hm]⟩, fun j hj => mul_le_mul_of_nonneg_left (h j hj) (le_of_lt hs)⟩
  have e2 := between_windings_value (c := { c with volt := fun i => s * c.volt i }) hne
    (fun i => mul_nonneg (le_of_lt hs) (hv i)) hcap ht1 ht2 (t h1) (t h2) ha hb hx hx0
    (by have := mul_pos hs hab; simp only []; linarith)
    (w := s * (((first.turns : K) / (second.turns : K) * m1 + m2) / 2)) (by ring) hw1
  rw [e, e2]
  congr 1
  generalize ((first.turns : K) / (second.turns : K) * m1 + m2) / 2 = w at *
  have h3 : s * w + s * m1 + s * m2 = s * (w + m1 + m2) := by ring
  have h4 : Spec.over { c with volt := fun i => s * c.volt i } first.name second.name
      (fun a b => Spec.capacitance { c with volt := fun i => s * c.volt i } a b * (s * w + s * c.volt a + s * c.volt b) ^ 2) =
      Spec.over c first.name second.name (fun a b => Spec.capacitance c a b * (w + c.volt a + c.volt b) ^ 2) * s ^ 2 := by
    rw [← over_mul]
    unfold Spec.over Spec.capacitance
    apply Finset.sum_congr rfl
    intro a _
    apply Finset.sum_congr rfl
    intro b _
    split
    · ring
    · rfl
  rw [h4, h3, mul_pow, mul_comm (s ^ 2), mul_div_mul_right _ _ (by positivity)]

/-- C145: windings without neighbouring turns have the capacitance through the core, if there is one, and otherwise none. -/
theorem apart_windings {c : Coil K} {first second : Winding} (hne : first.name ≠ second.name)
    (hadj : ¬ Spec.Adjacent c first.name second.name) :
    pairCap c first second =
      .ok (match c.core with
        | none => 0
        | some toCore => throughCore toCore c.volt first.name second.name c.turns) := by
  have hc : coupled c first.name second.name = [] := by
    rw [List.eq_nil_iff_forall_not_mem]
    intro q hq
    obtain ⟨h1, h2, h3⟩ := mem_coupled hq
    exact hadj ⟨_, _, _, isOf_iff.mpr h1, isOf_iff.mpr h2, h3⟩
  have it : iterate c first second 0 = .ok { cap := notAdjacentCap c first.name second.name, v3 := some 0 } := by
    unfold iterate
    rw [hc]
  have hr := loop_ends c first second 2 (le_refl _)
  rw [loop, it] at hr
  simp only [again_same] at hr
  injection hr with hr
  rw [← hr]
  congr 1
  unfold notAdjacentCap
  cases c.core with
  | none => rfl
  | some t => simp [hne]

/-! ## A winding and itself -/

/-- C145: the capacitance of a winding is the one which stores, at the voltage between its ends, the energy of all pairs of its
turns and that of its turns to the core. -/
theorem self_value_partial {c : Coil K} {w : Winding} (hself : ∀ a, c.cap a a = none)
    {hi lo : K} (h1 : Spec.Top c w.name hi) (h2 : Spec.Bottom c w.name lo) (hlt : lo < hi)
    (hadj : ∃ a b x, Spec.IsOf c.turns w.name a ∧ Spec.IsOf c.turns w.name b ∧ a < b ∧ c.cap a b = some x) :
    pairCap c w w =
      .ok (((Spec.overPairs c w.name fun a b => Spec.capacitance c a b * (c.volt a - c.volt b) ^ 2) +
        2 * Spec.coreEnergy c w.name) / (hi - lo) ^ 2) := by
  obtain ⟨a, b, x, ha, hb, hab, hx⟩ := hadj
  have hc : coupled c w.name w.name ≠ [] := by
    intro h
    have := coupled_of_le (isOf_iff.mp ha) (isOf_iff.mp hb) (le_of_lt hab) hx
    rw [h] at this
    cases this
  have e1 := max1_of_top h1
  have e2 := min2_of_bottom h2
  have d : hi - lo + 0 ≠ 0 := by linarith
  have hr := loop_ends c w w 2 (le_refl _)
  rw [loop, iterate_of_coupled hc e1 e2, if_neg d] at hr
  simp only [ne_eq, not_true_eq_false, if_false] at hr
  by_cases h0 : energyOf c w.name w.name 0 = 0
  · rw [if_pos h0] at hr
    simp only [again_same] at hr
    injection hr with hr
    rw [← hr]
    congr 1
    rw [energyOf_within hself] at h0
    rw [eq_comm, div_eq_zero_iff]
    left
    linarith
  · rw [if_neg h0] at hr
    simp only [again_same] at hr
    injection hr with hr
    rw [← hr, energyOf_within hself, add_zero]
    congr 1
    congr 1
    ring

/-- The energy of the core for turns whose voltages are within a range. -/
theorem selfCoreEnergy_le {toCore volt : Nat → K} {name : String} {turns : List Turn} (hpos : ∀ i, 0 ≤ toCore i)
    {hi lo : K} (hr : ∀ i, Spec.IsOf turns name i → lo ≤ volt i ∧ volt i ≤ hi) :
    0 ≤ selfCoreEnergy toCore volt name turns ∧
    2 * selfCoreEnergy toCore volt name turns ≤ Spec.toTheCore toCore name turns / 4 * (hi - lo) ^ 2 := by
  have hp : ∀ p ∈ selfElements toCore volt name turns, 0 ≤ p.1 ∧ lo ≤ p.2 ∧ p.2 ≤ hi := by
    intro p hp
    unfold selfElements at hp
    rw [List.mem_filterMap] at hp
    obtain ⟨⟨t, k⟩, hti, h⟩ := hp
    split at h
    · cases h
    · rename_i hw
      injection h with h
      rw [← h]
      rw [List.mem_zipIdx_iff_getElem?] at hti
      exact ⟨hpos _, hr k ⟨t, by simpa using hti, by simpa using hw⟩⟩
  have hs : sumC (selfElements toCore volt name turns) = Spec.toTheCore toCore name turns := by
    unfold selfElements Spec.toTheCore sumC
    induction turns.zipIdx with
    | nil => rfl
    | cons ti l ih =>
      rw [List.filterMap_cons, List.map_cons, List.sum_cons, ← ih]
      by_cases h : ti.1.winding = name <;> simp [h]
  unfold selfCoreEnergy
  rw [← hs]
  generalize selfElements toCore volt name turns = l at *
  simp only []
  have hn := sumC_nonneg fun p hpp => (hp p hpp).1
  by_cases h : sumC l ≤ 0
  · rw [if_pos h]
    exact ⟨le_refl _, by rw [mul_zero]; positivity⟩
  · rw [if_neg h]
    push Not at h
    refine ⟨coreEnergyAt_nonneg (fun p hpp => (hp p hpp).1) _, ?_⟩
    have h0 : sumCV l - sumC l * corePotential l = 0 := by
      unfold corePotential
      field_simp
      ring
    have h1 := coreEnergyAt_move l (corePotential l) ((hi + lo) / 2)
    rw [h0] at h1
    have h2 : coreEnergyAt l ((hi + lo) / 2) ≤ 1 / 2 * sumC l * ((hi - lo) / 2) ^ 2 := by
      apply coreEnergyAt_le fun p hpp => (hp p hpp).1
      intro p hp'
      obtain ⟨-, a, b⟩ := hp p hp'
      apply sq_le_sq' <;> linarith
    have h3 : 0 ≤ 1 / 2 * sumC l * ((hi + lo) / 2 - corePotential l) ^ 2 := by positivity
    nlinarith

/-- C145: it is not negative, and no more than the capacitances between the turns together and a fourth of those to the core. -/
theorem self_le {c : Coil K} {w : Winding} (hself : ∀ a, c.cap a a = none) (hcap : Spec.NonNegative c)
    (hcore : ∀ toCore, c.core = some toCore → ∀ i, 0 ≤ toCore i)
    {hi lo : K} (h1 : Spec.Top c w.name hi) (h2 : Spec.Bottom c w.name lo) (hlt : lo < hi)
    (hadj : ∃ a b x, Spec.IsOf c.turns w.name a ∧ Spec.IsOf c.turns w.name b ∧ a < b ∧ c.cap a b = some x) :
    ∃ r, pairCap c w w = .ok r ∧ 0 ≤ r ∧
      r ≤ Spec.overPairs c w.name (Spec.capacitance c) +
        (match c.core with | none => 0 | some toCore => Spec.toTheCore toCore w.name c.turns / 4) := by
  refine ⟨_, self_value_partial hself h1 h2 hlt hadj, ?_⟩
  have hd : 0 < hi - lo := by linarith
  have hrange : ∀ i, Spec.IsOf c.turns w.name i → lo ≤ c.volt i ∧ c.volt i ≤ hi := fun i hi' => ⟨h2.2 i hi', h1.2 i hi'⟩
  have p1 : 0 ≤ Spec.overPairs c w.name fun a b => Spec.capacitance c a b * (c.volt a - c.volt b) ^ 2 := by
    apply overPairs_nonneg
    intro a b
    have := capacitance_nonneg hcap a b
    positivity
  have p2 : (Spec.overPairs c w.name fun a b => Spec.capacitance c a b * (c.volt a - c.volt b) ^ 2) ≤
      Spec.overPairs c w.name (Spec.capacitance c) * (hi - lo) ^ 2 := by
    rw [← overPairs_mul]
    apply overPairs_le
    intro a b ha hb
    apply mul_le_mul_of_nonneg_left _ (capacitance_nonneg hcap a b)
    have q1 := hrange a ha
    have q2 := hrange b hb
    apply sq_le_sq' <;> linarith
  have p3 : 0 ≤ Spec.coreEnergy c w.name ∧ 2 * Spec.coreEnergy c w.name ≤
      (match c.core with | none => 0 | some toCore => Spec.toTheCore toCore w.name c.turns / 4) * (hi - lo) ^ 2 := by
    unfold Spec.coreEnergy
    cases hk : c.core with
    | none => simp
    | some toCore => exact selfCoreEnergy_le (hcore toCore hk) hrange
  constructor
  · apply div_nonneg _ (by positivity)
    linarith [p3.1]
  · rw [div_le_iff₀ (by positivity), add_mul]
    linarith [p3.2]

/-- C145: a winding none of whose turns is next to another of its turns has no capacitance, even if there is a core. -/
theorem self_apart {c : Coil K} {w : Winding} (hadj : ¬ Spec.Adjacent c w.name w.name) : pairCap c w w = .ok 0 := by
  have hc : coupled c w.name w.name = [] := by
    rw [List.eq_nil_iff_forall_not_mem]
    intro q hq
    obtain ⟨h1, h2, h3⟩ := mem_coupled hq
    exact hadj ⟨_, _, _, isOf_iff.mpr h1, isOf_iff.mpr h2, h3⟩
  have it : iterate c w w 0 = .ok { cap := 0, v3 := some 0 } := by
    unfold iterate
    rw [hc]
    simp only []
    congr 2
    unfold notAdjacentCap
    cases c.core with
    | none => rfl
    | some t => simp
  have hr := loop_ends c w w 2 (le_refl _)
  rw [loop, it] at hr
  simp only [again_same] at hr
  injection hr with hr
  exact hr.symm

/-- C145: with voltages and capacitances which are not negative, no pair of windings is refused. -/
theorem windings_never_refused {c : Coil K} (hself : ∀ a, c.cap a a = none) (hv : ∀ i, 0 ≤ c.volt i)
    (first second : Winding) : ∃ r, pairCap c first second = .ok r := by
  cases hp : pairCap c first second with
  | ok r => exact ⟨r, rfl⟩
  | error e =>
    exfalso
    have nofail : ∀ v, (0 ≤ v) → (first.name = second.name → v = 0) → ∀ e, iterate c first second v ≠ .error e := by
      intro v hv0 hvs e he
      by_cases hc : coupled c first.name second.name = []
      · unfold iterate at he
        rw [hc] at he
        cases he
      · obtain ⟨q, qs, hq⟩ := List.exists_cons_of_ne_nil hc
        have hmem := mem_coupled (c := c) (q := q) (by rw [hq]; simp)
        obtain ⟨hi, ht⟩ := exists_top (c := c) ⟨q.1.1, isOf_iff.mpr hmem.1⟩
        have hi0 : 0 ≤ hi := le_trans (hv q.1.1) (ht.2 _ (isOf_iff.mpr hmem.1))
        by_cases hn : first.name = second.name
        · rw [← hn] at hmem
          obtain ⟨lo, hb⟩ := exists_bottom (c := c) ⟨q.1.2, isOf_iff.mpr hmem.2.1⟩
          rw [iterate_of_coupled hc (max1_of_top ht) (lo := lo) (by rw [← hn]; exact min2_of_bottom hb)] at he
          split at he
          · cases he
          · rename_i h0
            split at he
            · rename_i h1
              apply h0
              rw [← hn, hvs hn, energyOf_within hself]
              rw [hvs hn] at h1
              have heq : ∀ i, Spec.IsOf c.turns first.name i → lo ≤ c.volt i ∧ c.volt i ≤ lo := by
                intro i hi'
                exact ⟨hb.2 i hi', by have := ht.2 i hi'; linarith⟩
              have z1 : (Spec.overPairs c first.name fun a b => Spec.capacitance c a b * (c.volt a - c.volt b) ^ 2) = 0 := by
                apply Finset.sum_eq_zero
                intro a _
                apply Finset.sum_eq_zero
                intro b _
                split
                · rename_i hh
                  have q1 := heq a hh.1
                  have q2 := heq b hh.2.1
                  have : c.volt a - c.volt b = 0 := by linarith
                  simp only [this]
                  ring
                · rfl
              have z2 : Spec.coreEnergy c first.name = 0 := by
                unfold Spec.coreEnergy
                cases c.core with
                | none => rfl
                | some toCore =>
                  simp only []
                  unfold selfCoreEnergy
                  simp only []
                  split
                  · rfl
                  · rename_i hs
                    have hall : ∀ p ∈ selfElements toCore c.volt first.name c.turns, p.2 = lo := by
                      intro p hp
                      unfold selfElements at hp
                      rw [List.mem_filterMap] at hp
                      obtain ⟨⟨t, k⟩, hti, h⟩ := hp
                      split at h
                      · cases h
                      · rename_i hw
                        injection h with h
                        rw [← h]
                        rw [List.mem_zipIdx_iff_getElem?] at hti
                        have := heq k ⟨t, by simpa using hti, by simpa using hw⟩
                        exact le_antisymm this.2 this.1
                    generalize selfElements toCore c.volt first.name c.turns = l at *
                    have hcv : sumCV l = sumC l * lo := by
                      clear hs
                      induction l with
                      | nil => simp [sumCV, sumC]
                      | cons p l ih =>
                        rw [sumCV_cons, sumC_cons, ih fun q hq => hall q (by simp [hq]), hall p (by simp)]
                        ring
                    have hpot : corePotential l = lo := by
                      unfold corePotential
                      rw [hcv, mul_comm, mul_div_assoc, div_self (by intro h; rw [h] at hs; exact hs (le_refl _)), mul_one]
                    rw [hpot]
                    clear hs hcv hpot
                    induction l with
                    | nil => simp [coreEnergyAt]
                    | cons p l ih =>
                      rw [coreEnergyAt_cons, ih fun q hq => hall q (by simp [hq]), hall p (by simp)]
                      ring
              rw [z1, z2]
              ring
            · cases he
        · obtain ⟨m2, hb⟩ := exists_top (c := c) ⟨q.1.2, isOf_iff.mpr hmem.2.1⟩
          have hm2 : 0 ≤ m2 := le_trans (hv q.1.2) (hb.2 _ (isOf_iff.mpr hmem.2.1))
          rw [iterate_of_coupled hc (max1_of_top ht) (min2_of_top hn hb)] at he
          split at he
          · cases he
          · rename_i h0
            split at he
            · rename_i h1
              apply h0
              have z1 : hi = 0 := by linarith
              have z2 : m2 = 0 := by linarith
              have z3 : v = 0 := by linarith
              rw [energyOf_between hn]
              have : (Spec.over c first.name second.name
                  fun a b => Spec.capacitance c a b * (v + c.volt a + c.volt b) ^ 2) = 0 := by
                apply Finset.sum_eq_zero
                intro a _
                apply Finset.sum_eq_zero
                intro b _
                split
                · rename_i hh
                  have q1 := ht.2 a hh.1
                  have q2 := hb.2 b hh.2
                  have q3 := hv a
                  have q4 := hv b
                  have : v + c.volt a + c.volt b = 0 := by linarith
                  simp only [this]
                  ring
                · rfl
              rw [this]
              ring
            · cases he
    have hr := loop_ends c first second 2 (le_refl _)
    rw [hp] at hr
    rw [loop] at hr
    cases h1 : iterate c first second 0 with
    | error e => exact nofail 0 (le_refl _) (fun _ => rfl) e h1
    | ok it =>
      rw [h1] at hr
      simp only [] at hr
      cases h2 : it.v3 with
      | none => simp [h2] at hr
      | some w =>
        rw [h2] at hr
        simp only [] at hr
        by_cases h3 : again 0 (some w) = true
        · rw [if_pos h3] at hr
          have hw : w = node c first second := by
            rcases iterate_next h1 h2 with h | h
            · rw [h, again_same] at h3
              cases h3
            · exact h
          have hw0 : 0 ≤ w := by
            rw [hw]
            unfold node
            split
            · positivity
            · exact le_refl _
          have hws : first.name = second.name → w = 0 := by
            intro hn
            have hv3 : it.v3 = some 0 := by
              unfold iterate at h1
              split at h1
              · simp only [hn, ne_eq, not_true_eq_false, if_false] at h1
                split at h1
                · injection h1 with h1; rw [← h1]
                · split at h1
                  · cases h1
                  · injection h1 with h1; rw [← h1]
              · injection h1 with h1; rw [← h1]
            rw [hv3] at h2
            injection h2 with h2
            exact h2.symm
          rw [loop] at hr
          cases h4 : iterate c first second w with
          | error e => exact nofail w hw0 hws e h4
          | ok it2 =>
            rw [h4] at hr
            simp only [] at hr
            cases h5 : it2.v3 with
            | none => simp [h5] at hr
            | some w2 =>
              rw [h5] at hr
              simp only [] at hr
              split at hr
              · simp [loop] at hr
              · simp at hr
        · rw [if_neg h3] at hr
          simp at hr

end Verif.StrayCapacitance
