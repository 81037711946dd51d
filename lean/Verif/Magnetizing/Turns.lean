import Mathlib.Algebra.Order.Floor.Ring
import Mathlib.Algebra.Order.Floor.Semiring
import Mathlib.Algebra.Order.Field.Basic
import Mathlib.Algebra.Order.Group.Abs
import Mathlib.Data.Nat.Sqrt
import Mathlib.Data.Rat.Floor

/-!
# Turns for an inductance
(src/physical_models/MagnetizingInductance.cpp:661-783)

Doubles are exact numbers; not a number and infinities are not expressed.
-/

namespace Verif.Magnetizing

variable {K : Type} [Field K] [LinearOrder K] [FloorRing K]

/-- `std::round(std::sqrt(x))` for `x` not negative: the whole number nearest to the root, halves away from zero. Twice the root and one, halved
(see `rootRound_spec`). -/
def rootRound (x : K) : ℕ := (Nat.sqrt ⌊4 * x⌋₊ + 1) / 2

/-- `static_cast<int>` of a number that is not negative; `none` is undefined behaviour. -/
def toInt (n : ℕ) : Option ℤ := if n < 2 ^ 31 then some n else none

section

variable {S : Type}

/-- The iteration on the square of the turns (src/physical_models/MagnetizingInductance.cpp:716-723). `eval` is `inductanceAtTurns` (710-714); since
the operating point that it is given is written to, it has a state. Exceptions of it, which end the call, are not expressed. -/
def newton (eval : S → ℤ → K × S) (target : K) : ℕ → S → ℤ → Option (ℤ × S)
  | 0, s, n => some (n, s)
  | left + 1, s, n =>
    if (eval s n).1 ≤ 0 then some (n, (eval s n).2)
    else (toInt (rootRound ((n : K) ^ 2 * (target / (eval s n).1)))).bind fun next : ℤ =>
      if max 1 next = n then some (n, (eval s n).2) else newton eval target left (eval s n).2 (max 1 next)

/-- The turns that are added until the target is cleared (src/physical_models/MagnetizingInductance.cpp:729-733). -/
def bump (eval : S → ℤ → K × S) (target : K) : ℕ → S → ℤ → Option ℤ
  | 0, _, n => some n
  | left + 1, s, n =>
    if (eval s n).1 ≤ 0 ∨ (eval s n).1 ≥ target then some n
    else if n + 1 < 2 ^ 31 then bump eval target left (eval s n).2 (n + 1) else none

/-- The candidate with the smallest error, the first of equals (src/physical_models/MagnetizingInductance.cpp:742-755). `best` is none for the
infinity that it starts with. -/
def pick (eval : S → ℤ → K × S) (target : K) : S → List ℤ → Option K → ℤ → ℤ
  | _, [], _, turns => turns
  | s, c :: cs, best, turns =>
    if c < 1 then pick eval target s cs best turns
    else if (eval s c).1 ≤ 0 then pick eval target (eval s c).2 cs best turns
    else if best.all (fun b => decide (|(eval s c).1 - target| < b)) then
      pick eval target (eval s c).2 cs (some |(eval s c).1 - target|) c
    else pick eval target (eval s c).2 cs best turns

/-- Models `calculate_number_turns_from_gapping_and_inductance` (src/physical_models/MagnetizingInductance.cpp:661-760). `given` are the turns of the
first winding, if there is one; `reluctance` the one at the permeability without bias (695-701); `start` the operating point, if there is one.
The inductance wanted is not negative where the turns are sized. `none` is undefined behaviour. -/
def turnsFor (eval : S → ℤ → K × S) (given : Option ℤ) (reluctance target : K) (minimum : Bool) (start : Option S) : Option ℤ :=
  if target ≤ 0 ∨ given = none then some (max 1 (given.getD 1))
  else (toInt (rootRound (target * reluctance))).bind fun seed : ℤ =>
    match start with
    | none => some (max 1 seed)
    | some s => (newton eval target 6 s (max 1 seed)).bind fun p : ℤ × S =>
      if minimum then (bump eval target 100 p.2 p.1).bind fun n : ℤ => some (max 1 n)
      else if p.1 + 1 < 2 ^ 31 then some (max 1 (pick eval target p.2 [p.1 - 1, p.1, p.1 + 1] none p.1)) else none

end

end Verif.Magnetizing
