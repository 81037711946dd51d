import Verif.Common.Round
import Mathlib.Algebra.Order.Ring.Rat
import Mathlib.Algebra.Field.Rat
import Mathlib.Data.Rat.Floor

/-! # Splitting the turns of a winding over sections and layers

Model of the part of `src/constructive_models/Coil.cpp` that decides how many turns of each parallel
go to each slot (a slot is a section when sections are wound and a layer when layers are wound).

Proportions are exact rationals. A double proportion in the code is always `k / numberTurns` up to
rounding, read back with `round(proportion * numberTurns)`; the model keeps the value `k / numberTurns`
exactly, so floating-point drift below half a turn is not modelled. Counts are unbounded naturals:
wrap-around at 2^64 is not modelled. -/

namespace Verif.Winding

open Verif.Round

/-- What a modelled call can do besides returning a value: throw an exception, return `false`
without a description, hit undefined behaviour, or put a NaN in the result. -/
inductive Res (α : Type) where
  | ok (a : α)
  | refused
  | thrown (msg : String)
  | ub
  | nan
  deriving DecidableEq, Repr

namespace Res

def bind {α β : Type} (x : Res α) (f : α → Res β) : Res β :=
  match x with
  | ok a => f a
  | refused => refused
  | thrown m => thrown m
  | ub => ub
  | nan => nan

instance : Monad Res where
  pure := ok
  bind := bind

end Res

/-- Models `WindingStyle`. -/
inductive Style where
  | turns
  | parallels
  deriving DecidableEq, Repr

/-- Models one iteration of `Coil::wind_by_consecutive_turns(vector, vector, vector)`
(src/constructive_models/Coil.cpp:5120-5198), with `ovr` the answer of `get_winding_style_override`
for that winding (5108-5118). -/
def sectionStyle (T P n : Nat) (ovr : Option Style) : Res Style :=
  if n = 0 then
    .thrown "Number of slots cannot be less than 1, please verify your isolation sides requirement"
  else if T < n ∧ P > 1 then .ok .turns
  else
    match ovr with
    | some s => .ok s
    | none =>
      if T = n then .ok .parallels
      else if P = n then .ok .turns
      else if P > 1 ∧ T % n = 0 then .ok .parallels
      else if P > 1 ∧ n > 1 ∧ (T * P) % n = 0 then .ok .parallels
      else if P % n = 0 then .ok .turns
      else if T % n = 0 then .ok .parallels
      else if P > 1 then .ok .parallels
      else .ok .turns

/-- Models `Coil::wind_by_consecutive_turns(uint64_t, uint64_t, size_t, optional)`
(src/constructive_models/Coil.cpp:5207-5264). `ovr` is the override found when a winding index is
given, `none` otherwise. A remainder by zero slots is undefined behaviour. -/
def layerStyle (T P n : Nat) (ovr : Option Style) : Res Style :=
  if T < n ∧ P > 1 then .ok .turns
  else
    match ovr with
    | some s => .ok s
    | none =>
      if T = n then .ok .parallels
      else if P = n then .ok .turns
      else if n = 0 then .ub
      else if P > 1 ∧ T % n = 0 then .ok .parallels
      else if P > 1 ∧ (T * P) % n = 0 then .ok .parallels
      else if P % n = 0 then .ok .turns
      else if T % n = 0 then .ok .parallels
      else if P > 1 then .ok .parallels
      else .ok .turns

/-- Models `round(proportion * numberTurns)` converted to an unsigned integer, as used throughout
(e.g. src/constructive_models/Coil.cpp:6038, 5280, 9311). A negative value does not fit an unsigned
integer: undefined behaviour. -/
def turnsOf (T : Nat) (p : ℚ) : Res Nat :=
  let z := Round.round (p * T)
  if z < 0 then .ub else .ok z.toNat

/-- The sum of `turnsOf` over the parallels (src/constructive_models/Coil.cpp:6036-6039, 5279-5281). -/
def sumTurns (T : Nat) : List ℚ → Res Nat
  | [] => .ok 0
  | p :: ps => (turnsOf T p).bind fun k => (sumTurns T ps).bind fun s => .ok (k + s)

/-- Models the `while` loop of the consecutive-turns branch (src/constructive_models/Coil.cpp:6054-6066),
starting at the parallel the list starts at, with `left` physical turns still to hand out. Running
past the last parallel reads and writes outside the vectors. -/
def fill (T : Nat) (left : Nat) : List ℚ → Res (List ℚ)
  | [] => if left = 0 then .ok [] else .ub
  | p :: ps =>
    if left = 0 then .ok (List.replicate (ps.length + 1) 0)
    else
      (turnsOf T p).bind fun fit =>
        if left ≥ fit then
          (fill T (left - fit) ps).bind fun rest => .ok ((fit : ℚ) / T :: rest)
        else .ok ((left : ℚ) / T :: List.replicate ps.length 0)

/-- Models the search for the first parallel with something left
(src/constructive_models/Coil.cpp:6046-6052) followed by the loop of `fill`: parallels before it get
zero. When none has anything left the search leaves parallel 0. -/
def fillFrom (T : Nat) (left : Nat) (rem : List ℚ) : Res (List ℚ) :=
  if ∃ p ∈ rem, p > 0 then
    let skipped := rem.takeWhile (fun p => decide (¬ p > 0))
    (fill T left (rem.dropWhile (fun p => decide (¬ p > 0)))).bind fun rest =>
      .ok (List.replicate skipped.length 0 ++ rest)
  else fill T left rem

/-- One pass of the inner `for` of the forced split (src/constructive_models/Coil.cpp:6082-6089):
the parallels in order, one turn each while they have some left and the target is not reached.
Returns the new counts, the new total, and whether anything moved. -/
def rrPass (target : Nat) : List Nat → List Nat → Nat → List Nat × Nat × Bool
  | c :: cs, r :: rs, placed =>
    if placed < target ∧ c < r then
      let t := rrPass target cs rs (placed + 1)
      ((c + 1) :: t.1, t.2.1, true)
    else
      let t := rrPass target cs rs placed
      (c :: t.1, t.2.1, t.2.2)
  | cs, _, placed => (cs, placed, false)

/-- Every pass that moves something advances the total. -/
theorem rrPass_placed (target : Nat) : ∀ (cs rs : List Nat) (placed : Nat),
    placed ≤ (rrPass target cs rs placed).2.1 ∧
      ((rrPass target cs rs placed).2.2 = true → placed < (rrPass target cs rs placed).2.1)
  | [], rs, placed => by simp [rrPass]
  | c :: cs, [], placed => by simp [rrPass]
  | c :: cs, r :: rs, placed => by
    unfold rrPass
    by_cases h : placed < target ∧ c < r
    · rw [if_pos h]
      have := (rrPass_placed target cs rs (placed + 1)).1
      constructor
      · simp only; omega
      · intro _; simp only; omega
    · rw [if_neg h]
      exact rrPass_placed target cs rs placed

/-- Models the `while (placed < turnsToPlace && progress)` loop
(src/constructive_models/Coil.cpp:6080-6090). -/
def rrLoop (target : Nat) (rs : List Nat) (cs : List Nat) (placed : Nat) : List Nat × Nat :=
  if _h : placed < target then
    match hm : (rrPass target cs rs placed).2.2 with
    | true => rrLoop target rs (rrPass target cs rs placed).1 (rrPass target cs rs placed).2.1
    | false => ((rrPass target cs rs placed).1, (rrPass target cs rs placed).2.1)
  else (cs, placed)
  termination_by target - placed
  decreasing_by
    have := (rrPass_placed target cs rs placed).2 hm
    omega

/-- `turnsOf` for every parallel (src/constructive_models/Coil.cpp:6075-6077). -/
def turnsList (T : Nat) : List ℚ → Res (List Nat)
  | [] => .ok []
  | p :: ps => (turnsOf T p).bind fun k => (turnsList T ps).bind fun s => .ok (k :: s)

/-- Models the loop body of the consecutive-parallels branch (src/constructive_models/Coil.cpp:6097-6110)
for one parallel: the number of turns added to the slot and the proportion stored. With zero turns
per parallel `a / numberTurns` is a NaN, which `std::min` drops in favour of its first argument. -/
def evenShare (slotsLeft : Nat) (T : Nat) (rel : ℚ) (p : ℚ) : ℤ × ℚ :=
  let before : ℚ := T * p
  let a₀ : ℤ := ⌈roundFloat (before / slotsLeft * rel) 10⌉
  let after : ℚ := before - a₀
  let a : ℤ := if after < (slotsLeft : ℚ) - 1 then ⌈roundFloat (before / slotsLeft) 10⌉ else a₀
  (a, if T = 0 then p else min p ((a : ℚ) / T))

/-- Models `get_parallels_proportions` (src/constructive_models/Coil.cpp:6029-6116): the physical
turns of slot `i` of `n` and the proportion of each parallel in it.
* `rem` shorter than the number of parallels is read out of range; entries past it are ignored.
* Slots at or past the last one divide by zero (or by a wrapped-around difference) and convert the
  quotient to an integer: undefined behaviour.
* The last argument of the code, `totalParallelsProportion`, is never read. -/
def split (i n T P : Nat) (rem : List ℚ) (style : Style) (rel : ℚ := 1) (forced : Option Nat := none) :
    Res (Nat × List ℚ) :=
  if rem.length < P then .ub
  else
    let rem := rem.take P
    match style, forced with
    | .turns, forced =>
      (sumTurns T rem).bind fun R =>
        match forced with
        | some k => (fillFrom T k rem).bind fun ps => .ok (k, ps)
        | none =>
          if n ≤ i then .ub
          else
            let q : ℤ := ⌈(R : ℚ) / ((n - i : Nat) : ℚ) * rel⌉
            if q < 0 then .ub
            else
              let k := min R q.toNat
              (fillFrom T k rem).bind fun ps => .ok (k, ps)
    | .parallels, some k =>
      (turnsList T rem).bind fun rs =>
        let r := rrLoop k rs (List.replicate P 0) 0
        if T = 0 then (if P = 0 then .ok (r.2, []) else .nan)
        else .ok (r.2, r.1.map fun c : Nat => (c : ℚ) / (T : ℚ))
    | .parallels, none =>
      if n ≤ i then .ub
      else
        let shares := rem.map (evenShare (n - i) T rel)
        let total : ℤ := (shares.map (·.1)).sum
        if shares.any (fun s => decide (s.1 < 0)) then .ub
        else .ok (total.toNat, shares.map (·.2))

/-- Models the caller's bookkeeping, `remaining[parallel] -= proportion[parallel]`
(src/constructive_models/Coil.cpp:8605-8607, 8968-8970, 9724-9726, 10062-10064). -/
def takeAway (rem ps : List ℚ) : List ℚ := List.zipWith (· - ·) rem ps

end Verif.Winding
