import Verif.MaterialRef.Model

/-! # Specification of the cross-referencer of core materials

What a caller can say of a material: whether a dimension is known, whether it passes the dimensions that exclude
materials, which of two materials is closer to the reference. -/

namespace Verif.MaterialRef

variable {K : Type} [Field K] [LinearOrder K] [IsStrictOrderedRing K]

/-- The dimension of the material is a number. -/
def Known (temp : K) (d : Dimension) (c : Material K) : Prop := ∃ x, c.reading temp d = .number x

/-- The dimensions whose unknown values exclude a candidate. -/
def Excluding (d : Dimension) : Prop := d = .curie ∨ d = .losses

/-- The candidate is not excluded by the dimension: the dimension has no weight, or the reference has no value for it,
or the candidate has one. -/
def Passes (temp : K) (reference : Material K) (w : Dimension → K) (d : Dimension) (c : Material K) : Prop :=
  Excluding d → 0 < w d → Known temp d reference → c.reading temp d ≠ .nan

/-- The dimension stops the call, with these candidates left. -/
def Blocks (temp : K) (reference : Material K) (w : Dimension → K) (d : Dimension) (cs : List (Material K)) : Prop :=
  0 < w d ∧ (reference.reading temp d = .raises ∨
    (¬ Excluding d ∧ ∃ c ∈ cs, ¬ Known temp d reference ∨ ¬ Known temp d c) ∨
    (Excluding d ∧ Known temp d reference ∧ ∃ c ∈ cs, c.reading temp d = .raises))

/-- In this dimension the first material is at least as close to the reference as the second one. -/
def Closer (temp : K) (reference : Material K) (d : Dimension) (a b : Material K) : Prop :=
  ∀ r x y, reference.reading temp d = .number r → a.reading temp d = .number x → b.reading temp d = .number y →
    |r - x| ≤ |r - y|

/-- The material may be offered for the reference: another name, the manufacturer asked for, the same application and,
unless any is allowed, the same type. -/
def Fits (allow : Bool) (only : Option String) (reference c : Material K) : Prop :=
  c.name ≠ reference.name ∧ (∀ m, only = some m → c.manufacturer = m) ∧ c.application = reference.application ∧
    (allow = true ∨ c.type = reference.type)

end Verif.MaterialRef
