import Verif.WireByDim.Lemmas
import Mathlib.Algebra.Order.Ring.Rat
import Mathlib.Algebra.Field.Rat

/-! # C34: the wire found for a dimension -/

set_option linter.unusedSectionVars false

namespace Verif.WireByDim

variable {K : Type} [Field K] [LinearOrder K] [IsStrictOrderedRing K]

/-! ## Specification -/

/-- The wire has the requested standard and type, where one is requested. -/
def Matches (type : Option WireType) (standard : Option String) (w : Wire K) : Prop :=
  (∀ t, type = some t → w.type = t) ∧ ∀ s, standard = some s → w.standard = some s

/-- The conducting dimension that matters for the type of the wire. -/
def HasDim (w : Wire K) (x : K) : Prop :=
  (w.type = .round ∧ w.diameter = some x) ∨ ((w.type = .planar ∨ w.type = .rectangular) ∧ w.height = some x) ∨
    (w.type = .foil ∧ w.width = some x)

/-- A solid wire without the dimension that matters. -/
def Incomplete (w : Wire K) : Prop :=
  (w.type = .round ∧ w.diameter = none) ∨ ((w.type = .planar ∨ w.type = .rectangular) ∧ w.height = none) ∨
    (w.type = .foil ∧ w.width = none)

/-- `w` is the answer asked for: in the catalogue, of the requested kind, as close as any other, and no thicker
outside than any other equally close one. -/
def Closest (catalogue : List (Wire K)) (type : Option WireType) (standard : Option String) (d : K)
    (w : Wire K) : Prop :=
  w ∈ catalogue ∧ Matches type standard w ∧ ∃ x, HasDim w x ∧
    ∀ v ∈ catalogue, Matches type standard v → ∀ y, HasDim v y →
      |x - d| ≤ |y - d| ∧ (|y - d| = |x - d| → w.outer ≤ v.outer)

/-! ## Theorems -/

theorem eligible_iff (type : Option WireType) (standard : Option String) (w : Wire K) :
    eligible type standard w = true ↔ Matches type standard w := by
  unfold eligible Matches
  cases type <;> cases standard <;> simp
  · cases w.standard <;> simp
  · cases w.standard <;> simp
    tauto

theorem conducting_iff (w : Wire K) (x : K) : conducting w = some (some x) ↔ HasDim w x := by
  unfold conducting HasDim
  cases w.type <;> simp

theorem incomplete_iff (w : Wire K) : conducting w = some none ↔ Incomplete w := by
  unfold conducting Incomplete
  cases w.type <;> simp

theorem cand_iff (type : Option WireType) (standard : Option String) (w : Wire K) (x : K) :
    Cand type standard w x ↔ Matches type standard w ∧ HasDim w x := by
  unfold Cand; rw [eligible_iff, conducting_iff]

theorem distance_le {d x y : K} (hd : 0 < d) : distance d x ≤ distance d y ↔ |x - d| ≤ |y - d| := by
  unfold distance; exact div_le_div_iff_of_pos_right hd

/-- C34: the wire returned is the closest one of the requested kind, ties going to the thinnest outside; only its
name and coating may have been hidden. -/
theorem find_closest {catalogue : List (Wire K)} {type : Option WireType} {standard : Option String}
    {obfuscate : Bool} {d : K} (hd : 0 < d) {r : Wire K}
    (h : find catalogue type standard obfuscate d = .wire r) :
    ∃ w, Closest catalogue type standard d w ∧
      r = (if obfuscate then { w with name := none, coated := false } else w) := by
  unfold find at h
  cases hl : loop type standard d catalogue (none, []) with
  | none => rw [hl] at h; cases h
  | some st =>
    obtain ⟨o, ties⟩ := st
    rw [hl] at h
    cases o with
    | none => cases h
    | some mc =>
      obtain ⟨m, c⟩ := mc
      simp only [Out.wire.injEq] at h
      have inv := loop_inv (seen := []) (by unfold Inv; simp) hl
      unfold Inv at inv
      simp only [List.nil_append] at inv
      obtain ⟨i1, i2⟩ := inv
      obtain ⟨t1, t2⟩ := tieBreak_spec c ties
      obtain ⟨hmem, x, hx, hdx⟩ := i1 _ t1
      refine ⟨tieBreak c ties, ⟨hmem, ((cand_iff _ _ _ _).mp hx).1, x, ((cand_iff _ _ _ _).mp hx).2, ?_⟩, h.symm⟩
      intro v hv hm y hy
      obtain ⟨j1, j2⟩ := i2 v hv y ((cand_iff _ _ _ _).mpr ⟨hm, hy⟩)
      refine ⟨(distance_le hd).mp (by rw [hdx]; exact j1), fun e => t2 v (j2 ?_)⟩
      rw [← hdx]
      unfold distance
      rw [e]

/-- C34: exactly when a wire comes back, when the call fails, and when it hands out an empty wire instead. -/
theorem find_outcome (catalogue : List (Wire K)) (type : Option WireType) (standard : Option String)
    (obfuscate : Bool) (d : K) :
    (find catalogue type standard obfuscate d = .throws ↔
      ∃ w ∈ catalogue, Matches type standard w ∧ Incomplete w) ∧
    (find catalogue type standard obfuscate d = .defaultWire ↔
      (∀ w ∈ catalogue, Matches type standard w → w.type = .litz)) := by
  have hthrow : find catalogue type standard obfuscate d = .throws ↔
      ∃ w ∈ catalogue, Matches type standard w ∧ Incomplete w := by
    have : find catalogue type standard obfuscate d = .throws ↔
        loop type standard d catalogue (none, []) = none := by
      unfold find
      cases hl : loop type standard d catalogue (none, []) with
      | none => simp
      | some st => obtain ⟨o, ties⟩ := st; cases o <;> simp
    rw [this, loop_none_iff]
    simp only [eligible_iff, incomplete_iff]
  refine ⟨hthrow, ?_⟩
  have cases3 : ∀ w : Wire K, w.type = .litz ∨ Incomplete w ∨ ∃ x, HasDim w x := by
    intro w
    unfold Incomplete HasDim
    cases ht : w.type with
    | litz => simp
    | round => cases w.diameter <;> simp
    | planar => cases w.height <;> simp
    | rectangular => cases w.height <;> simp
    | foil => cases w.width <;> simp
  have litz_no : ∀ w : Wire K, w.type = .litz → ¬ Incomplete w ∧ ∀ x, ¬ HasDim w x := by
    intro w hw
    unfold Incomplete HasDim
    rw [hw]
    simp
  constructor
  · intro h w hw hm
    have hnt : ¬ ∃ w ∈ catalogue, Matches type standard w ∧ Incomplete w := by
      rw [← hthrow, h]; simp
    rcases cases3 w with hc | hc | ⟨x, hx⟩
    · exact hc
    · exact absurd ⟨w, hw, hm, hc⟩ hnt
    · exfalso
      unfold find at h
      cases hl : loop type standard d catalogue (none, []) with
      | none => rw [hl] at h; cases h
      | some st =>
        obtain ⟨o, ties⟩ := st
        rw [hl] at h
        cases o with
        | some mc => cases h
        | none =>
          have inv := loop_inv (seen := []) (by unfold Inv; simp) hl
          unfold Inv at inv
          simp only [List.nil_append] at inv
          exact inv.2 w hw x ((cand_iff _ _ _ _).mpr ⟨hm, hx⟩)
  · intro hall
    cases hf : find catalogue type standard obfuscate d with
    | defaultWire => rfl
    | throws =>
      obtain ⟨w, hw, hm, hi⟩ := hthrow.mp hf
      exact absurd hi (litz_no w (hall w hw hm)).1
    | wire r =>
      exfalso
      unfold find at hf
      cases hl : loop type standard d catalogue (none, []) with
      | none => rw [hl] at hf; cases hf
      | some st =>
        obtain ⟨o, ties⟩ := st
        rw [hl] at hf
        cases o with
        | none => cases hf
        | some mc =>
          obtain ⟨m, c⟩ := mc
          have inv := loop_inv (seen := []) (by unfold Inv; simp) hl
          unfold Inv at inv
          simp only [List.nil_append] at inv
          obtain ⟨hmem, x, hx, _⟩ := inv.1 c List.mem_cons_self
          have := (cand_iff _ _ _ _).mp hx
          exact (litz_no c (hall c hmem this.1)).2 x this.2

/-- Two wires equally close; the one with the thinner insulation wins although it comes second. -/
example : find (K := ℚ)
    [⟨some "a", true, .round, none, some 2, none, none, 5⟩, ⟨some "b", true, .round, none, some 4, none, none, 4⟩,
     ⟨some "c", true, .round, none, some 9, none, none, 1⟩] none none false 3 =
    .wire ⟨some "b", true, .round, none, some 4, none, none, 4⟩ := by decide +kernel

/-- C34, what fails: asking for litz, or for a standard no wire has, hands out a default-constructed wire without
an error. -/
theorem litz_gives_empty_wire (catalogue : List (Wire K)) (standard : Option String) (obfuscate : Bool) (d : K) :
    find catalogue (some .litz) standard obfuscate d = .defaultWire :=
  ((find_outcome catalogue (some .litz) standard obfuscate d).2).mpr (fun _ _ hm => hm.1 _ rfl)

end Verif.WireByDim
