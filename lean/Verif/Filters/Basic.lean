import Mathlib.Algebra.Order.Field.Basic
import Mathlib.Data.List.Basic
import Verif.Requirements.Model

/-!
# What every filter of a magnetic answers (src/advisers/MagneticFilter*.cpp)

A filter answers `std::pair<bool, double>`: is the magnetic kept, and its raw score. Numbers are those of an ordered field, so nothing
overflows; the quotient of zero by a count of zero is kept apart as `Score.nan`. What the physical models answer (flux densities, losses,
inductances, impedances) is given, and ranges over everything they could answer.
-/

namespace Verif.Filters

/-- What a call ends in: a value, an exception, or undefined behaviour. -/
inductive Outcome (α : Type)
  | value (a : α)
  | throws
  | undefined
  deriving DecidableEq

namespace Outcome

/-- One call after another. -/
def bind {α β : Type} (o : Outcome α) (f : α → Outcome β) : Outcome β :=
  match o with
  | value a => f a
  | throws => throws
  | undefined => undefined

/-- `.value()` of an optional, or a call that throws when there is no answer. -/
def take {α : Type} : Option α → Outcome α
  | some a => value a
  | none => throws

/-- `[]` of a vector, which is not checked. -/
def index {α : Type} : Option α → Outcome α
  | some a => value a
  | none => undefined

end Outcome

/-- A raw score. `nan` is `0.0 / 0`. -/
inductive Score (K : Type)
  | num (x : K)
  | nan
  deriving DecidableEq

/-- What a filter answers. -/
structure Answer (K : Type) where
  valid : Bool
  score : Score K
  deriving DecidableEq

variable {K : Type} [Field K] [LinearOrder K]

/-- `{false, 0.0}`, with which a filter leaves early. -/
def rejected : Answer K := ⟨false, .num 0⟩

/-- `scoring /= n` at the end of a filter (for instance src/advisers/MagneticFilterPhysical.cpp:256): over no element the sum is zero
and the quotient is not a number. -/
def mean (sum : K) (n : ℕ) : Score K := if n = 0 then .nan else .num (sum / n)

end Verif.Filters
