import Verif.Requirements.Model
import Mathlib.Data.Rat.Floor

/-!
# Model of `NumberTurns`

Source: `/repo/src/constructive_models/NumberTurns.h` 11-45, `/repo/src/constructive_models/NumberTurns.cpp`
15-81.  Ratios are exact rationals, counts are natural numbers (the `uint64_t` wrap-around at 2^64 is not
modelled).
-/

namespace Verif.NumberTurns

open Verif.Requirements

/-- `defaults.magnetizingInductanceThresholdValidity`, used by `check_requirement`. -/
def validity : ℚ := 1 / 4

/-- `_turnsRatioRelativeTolerance` (NumberTurns.h:21). -/
def tolerance : ℚ := 2 / 100

/-- The object: one entry per secondary, its requirement and its resolved nominal ratio, and the current
combination. -/
structure Obj where
  windings : List (Dim ℚ × ℚ)
  current : List ℕ
  deriving DecidableEq

/-- Outcome of a member function: normal, exception (with the object left behind), undefined behaviour. -/
inductive Out where
  | ok (o : Obj)
  | threw (o : Obj)
  | ub
  deriving DecidableEq

/-- C `round` on a non-negative number. -/
def roundHalfUp (x : ℚ) : ℕ := (x + 1 / 2).floor.toNat

/-- Is the requirement a bare nominal (NumberTurns.cpp:59-61)? -/
def nominalOnly (r : Dim ℚ) : Bool := r.minimum.isNone && r.maximum.isNone && r.nominal.isSome

/-- `ratioAcceptable` for one winding (NumberTurns.cpp:57-64); `none` = `check_requirement` throws. -/
def ratioAcceptable (r : Dim ℚ) (ratio realized : ℚ) : Option Bool :=
  match check validity r realized with
  | none => none
  | some ok =>
    if ok && nominalOnly r then some (decide (|realized - ratio| ≤ tolerance * ratio)) else some ok

/-- How the inner `for` loop ended. -/
inductive Inner where
  | passed | failed | threw
  deriving DecidableEq

/-- The inner `for` loop (NumberTurns.cpp:35-71): the secondaries pushed before it ended, and how it ended. -/
def secondaries (primary : ℕ) : List (Dim ℚ × ℚ) → List ℕ × Inner
  | [] => ([], .passed)
  | (r, ratio) :: ws =>
    let n := roundHalfUp (primary / ratio)
    if n = 0 then ([], .failed)
    else match ratioAcceptable r ratio ((primary : ℚ) / n) with
      | none => ([], .threw)
      | some false => ([], .failed)
      | some true =>
        let rest := secondaries primary ws
        (n :: rest.1, rest.2)

/-- `while (primary % multiple != 0) primary++;` (NumberTurns.cpp:30-32); at most `multiple` rounds. -/
def bump (multiple : ℕ) : ℕ → ℕ → ℕ
  | 0, p => p
  | fuel + 1, p => if p % multiple ≠ 0 then bump multiple fuel (p + 1) else p

/-- The outer loop (NumberTurns.cpp:26-77) with `timeout` rounds left: a round whose counter reaches zero
throws even if its combination passed. -/
def search (multiple : ℕ) (ws : List (Dim ℚ × ℚ)) : ℕ → ℕ → Out
  | 0, _ => .ub -- never entered: `timeout` starts at 1000 and the call throws when it reaches 0
  | timeout + 1, primary =>
    let p := bump multiple multiple (primary + multiple)
    let r := secondaries p ws
    let o : Obj := ⟨ws, p :: r.1⟩
    match r.2 with
    | .threw => .threw o
    | .passed => if timeout = 0 then .threw o else .ok o
    | .failed => if timeout = 0 then .threw o else search multiple ws timeout p

/-- `increment_number_turns` (NumberTurns.cpp:22-79).  `multiple = 0` divides by zero. -/
def increment (o : Obj) (multiple : ℕ) : Out :=
  match o.current with
  | [] => .ub
  | primary :: _ => if multiple = 0 then .ub else search multiple o.windings 1000 primary

/-- Result of a call of `get_next_number_turns_combination`. -/
inductive Next where
  | returned (combination : List ℕ) (o : Obj)
  | threw (o : Obj)
  | ub
  deriving DecidableEq

/-- `get_next_number_turns_combination` (NumberTurns.cpp:15-20): the value returned was computed by the
previous call. -/
def getNext (o : Obj) (multiple : ℕ) : Next :=
  match increment o multiple with
  | .ok o' => .returned o.current o'
  | .threw o' => .threw o'
  | .ub => .ub

/-- Resolution of the ratios in the constructor (NumberTurns.h:27-33); `none` = throws. -/
def resolveAll : List (Dim ℚ) → Option (List (Dim ℚ × ℚ))
  | [] => some []
  | r :: rs => match resolve r .nominal with
    | none => none
    | some x => if x ≤ 0 then none else match resolveAll rs with
      | none => none
      | some l => some ((r, x) :: l)

/-- The constructor (NumberTurns.h:24-37). A double below 0 minus one is out of range of `uint64_t`.
`none` = the object was not constructed. -/
def construct (initial : ℚ) (reqs : List (Dim ℚ)) : Option Obj :=
  match resolveAll reqs with
  | none => none
  | some ws =>
    if initial - 1 ≤ -1 then none
    else match increment ⟨ws, [(initial - 1).floor.toNat]⟩ 1 with
      | .ok o => some o
      | _ => none

end Verif.NumberTurns
