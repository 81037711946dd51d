import Mathlib.Algebra.Order.Field.Basic

/-!
# Model of `check_requirement` and `resolve_dimensional_values`

Source: `/repo/src/support/Utils.cpp` 1538-1574, `/repo/src/Definitions.h` 706-762.  Numbers range over a
linearly ordered field (no rounding, no NaN).
-/

namespace Verif.Requirements

/-- `MAS::DimensionWithTolerance`. -/
structure Dim (K : Type) where
  nominal : Option K
  minimum : Option K
  maximum : Option K
  deriving DecidableEq

variable {K : Type} [Field K] [LinearOrder K]

/-- `check_requirement` (Utils.cpp:1538-1574); `none` = throws.  `th` is
`defaults.magnetizingInductanceThresholdValidity` (0.25). -/
def check (th : K) (r : Dim K) (value : K) : Option Bool :=
  match r.minimum, r.nominal, r.maximum with
  | some mn, nom, some mx =>
    if mx < mn then none
    else match nom with
      | some n => if mx < n then none else some (decide (mn ≤ value ∧ value ≤ mx))
      | none => some (decide (mn ≤ value ∧ value ≤ mx))
  | none, some n, some mx => if mx < n then none else some (decide (n ≤ value ∧ value ≤ mx))
  | some mn, some n, none => if n < mn then none else some (decide (mn ≤ value ∧ value ≤ n))
  | none, some n, none => some (decide (n * (1 - th) ≤ value ∧ value ≤ n * (1 + th)))
  | some mn, none, none => some (decide (value > mn))
  | none, none, some mx => some (decide (value < mx))
  | none, none, none => some false

/-- `DimensionalValues` (Definitions.h). -/
inductive Pref where
  | maximum | nominal | minimum

/-- `resolve_dimensional_values` on a tolerance (Definitions.h:706-753); `none` = throws. -/
def resolve (d : Dim K) : Pref → Option K
  | .maximum => match d.maximum, d.nominal, d.minimum with
    | some x, _, _ => some x
    | none, some n, _ => some n
    | none, none, some m => some m
    | none, none, none => none
  | .nominal => match d.nominal, d.maximum, d.minimum with
    | some n, _, _ => some n
    | none, some x, some m => some ((x + m) / 2)
    | none, some x, none => some x
    | none, none, some m => some m
    | none, none, none => none
  | .minimum => match d.minimum, d.nominal, d.maximum with
    | some m, _, _ => some m
    | none, some n, _ => some n
    | none, none, some x => some x
    | none, none, none => none

/-- `MAS::Dimension`, a variant of a plain number and a tolerance. -/
inductive Dimension (K : Type) where
  | plain (x : K)
  | tol (d : Dim K)

/-- `resolve_dimensional_values` on the variant (Definitions.h:706-762). -/
def resolveDimension (d : Dimension K) (p : Pref) : Option K :=
  match d with
  | .plain x => some x
  | .tol t => resolve t p

end Verif.Requirements
