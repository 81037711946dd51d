import Verif.Filters.Basic
import Mathlib.Data.Nat.Factorial.Basic

/-!
# Orders of the windings, repetitions and how they are tried
(src/constructive_models/Coil.cpp:13790-14018, src/processors/Inputs.cpp:3417-3450, src/advisers/CoilAdviser.cpp:485-491,
src/advisers/MagneticFilter.cpp:166-171)

Isolation sides are numbers in the order of their enumeration, by which `std::next_permutation` compares them. The enumeration is of generated code
that is not in the repository, so which number each side has is a parameter.
-/

namespace Verif.Patterns

open Verif.Filters (Outcome)

/-- `defaults.maximumCoilPattern` (src/Defaults.h:60). -/
def maximumCoilPattern : ℕ := 6

/-! ## Isolation sides -/

/-- The sides of the windings from `start` on that are not given: `get_isolation_side_from_index` for each (src/processors/Inputs.cpp:3423-3425,
3434-3436). `sideOf` is that function (src/support/Utils.cpp:2033-2039), which throws for an index without a side. -/
def sidesFrom (sideOf : ℕ → Option ℕ) (start : ℕ) : ℕ → Outcome (List ℕ)
  | 0 => .value []
  | left + 1 => (Outcome.take (sideOf start)).bind fun s => (sidesFrom sideOf (start + 1) left).bind fun r => .value (s :: r)

/-- The requirement of isolation sides as `get_isolation_sides_used` leaves it (src/processors/Inputs.cpp:3418-3439). Without any, the first is the
primary, which is what index zero gives. -/
def fillSides (sideOf : ℕ → Option ℕ) (windings : ℕ) : Option (List ℕ) → Outcome (List ℕ)
  | none => sidesFrom sideOf 0 windings
  | some l => if l.length < windings then (sidesFrom sideOf l.length (windings - l.length)).bind fun r => .value (l ++ r) else .value l

/-- The sides that are used, each once, in the order they appear (src/processors/Inputs.cpp:3441-3447). -/
def used (acc : List ℕ) : List ℕ → List ℕ
  | [] => acc
  | s :: l => used (if s ∈ acc then acc else acc ++ [s]) l

/-! ## Patterns -/

/-- Splits a list at the last element that is larger than `a`. -/
def splitLast (a : ℕ) : List ℕ → Option (List ℕ × ℕ × List ℕ)
  | [] => none
  | b :: l => match splitLast a l with
    | some (pre, c, post) => some (b :: pre, c, post)
    | none => if a < b then some ([], b, l) else none

/-- The step of `std::next_permutation` when there is one. -/
def nextPermutation : List ℕ → Option (List ℕ)
  | [] => none
  | a :: l => match nextPermutation l with
    | some l' => some (a :: l')
    | none => match splitLast a l with
      | some (pre, b, post) => some (b :: (pre ++ a :: post).reverse)
      | none => none

/-- `std::next_permutation`, which turns the last order into the first one (src/constructive_models/Coil.cpp:13821). -/
def next (l : List ℕ) : List ℕ := (nextPermutation l).getD l.reverse

/-- The windings of one isolation side, in order (src/constructive_models/Coil.cpp:13810-13814). -/
def windingsOf (requirement : List ℕ) (windings side : ℕ) : List ℕ := (List.range windings).filter fun w : ℕ => requirement[w]? = some side

/-- The windings of each side, in the order of the sides (src/constructive_models/Coil.cpp:13808-13815). -/
def patternOf (requirement : List ℕ) (windings : ℕ) (sides : List ℕ) : List ℕ := sides.flatMap (windingsOf requirement windings)

/-- The loop over the orders of the sides (src/constructive_models/Coil.cpp:13807-13822). -/
def orders (requirement : List ℕ) (windings : ℕ) : ℕ → List ℕ → List (List ℕ) → List (List ℕ)
  | 0, _, acc => acc
  | left + 1, sides, acc =>
    let acc' := acc ++ [patternOf requirement windings sides]
    if maximumCoilPattern ≤ acc'.length then acc' else orders requirement windings left (next sides) acc'

/-- How many orders of the sides are looked at, at most (src/constructive_models/Coil.cpp:13806). -/
def patternBound (sides : ℕ) : ℕ := max 1 (sides.factorial / 2)

/-- Adds a pattern that is not yet there (for instance src/constructive_models/Coil.cpp:13862-13871). -/
def addNew (ps : List (List ℕ)) (p : List ℕ) : List (List ℕ) := if p ∈ ps then ps else ps ++ [p]

/-- The windings that are not on the side of the first one (src/constructive_models/Coil.cpp:13828-13833). -/
def secondariesOf (requirement : List ℕ) (windings : ℕ) : List ℕ :=
  (List.range windings).filter fun w : ℕ => decide (1 ≤ w) && decide (requirement[w]? ≠ requirement[0]?)

/-- Puts the elements of `values` in the places of the elements of `places` (src/constructive_models/Coil.cpp:13852-13859). Reading more values than
there are does not happen and is left out. -/
def refill (places : List ℕ) : List ℕ → List ℕ → List ℕ
  | [], _ => []
  | w :: ws, [] => w :: refill places ws []
  | w :: ws, v :: vs => if w ∈ places then v :: refill places ws vs else w :: refill places ws (v :: vs)

/-- The first pattern with the order of the secondaries reversed (src/constructive_models/Coil.cpp:13838-13859). -/
def reversedSecondaries (secondaries base : List ℕ) : List ℕ := refill secondaries base (base.filter fun w : ℕ => w ∈ secondaries).reverse

/-- The patterns with that of the reversed secondaries (src/constructive_models/Coil.cpp:13836-13873). -/
def withReversed (secondaries : List ℕ) : List (List ℕ) → List (List ℕ)
  | [] => []
  | base :: rest =>
    if 2 ≤ secondaries.length ∧ 2 ≤ (base.filter fun w : ℕ => w ∈ secondaries).length then
      addNew (base :: rest) (reversedSecondaries secondaries base)
    else base :: rest

/-- The patterns with the primary between two secondaries (src/constructive_models/Coil.cpp:13877-13891). -/
def withSandwich (windings : ℕ) (secondaries : List ℕ) (ps : List (List ℕ)) : List (List ℕ) :=
  match secondaries with
  | [s1, s2] => if windings = 3 ∧ ps.length < maximumCoilPattern then addNew ps [s1, 0, s2] else ps
  | _ => ps

/-- The extra patterns of three or more windings (src/constructive_models/Coil.cpp:13826-13892). -/
def extras (requirement : List ℕ) (windings : ℕ) (ps : List (List ℕ)) : List (List ℕ) :=
  if 3 ≤ windings ∧ ps.length < maximumCoilPattern then
    withSandwich windings (secondariesOf requirement windings) (withReversed (secondariesOf requirement windings) ps)
  else ps

/-- What is kept on a toroid (src/constructive_models/Coil.cpp:13894-13898). When more patterns are to be kept than there are, `end() - n` with `n`
wrapped around is a pointer beyond the end, which is undefined. -/
def cut (sides : ℕ) (ps : List (List ℕ)) : Outcome (List (List ℕ)) :=
  let keep := max 1 (sides - 1)
  if keep ≤ ps.length then .value (ps.take keep) else .undefined

/-- The reversals under the geometry of real windings (src/constructive_models/Coil.cpp:13911-13926): those of `base`, the patterns there are when
the loop starts. -/
def reversals : List (List ℕ) → List (List ℕ) → List (List ℕ)
  | [], ps => ps
  | p :: base, ps => if ps.length < maximumCoilPattern then reversals base (addNew ps p.reverse) else ps

/-- `Coil::get_patterns` (src/constructive_models/Coil.cpp:13790-13929), with the number of windings, the requirement of isolation sides, the type
of core and the setting `coil_use_real_winding_geometry`. -/
def getPatterns (sideOf : ℕ → Option ℕ) (windings : ℕ) (sides : Option (List ℕ)) (toroidal real : Bool) : Outcome (List (List ℕ)) :=
  (fillSides sideOf windings sides).bind fun requirement =>
    let us := used [] requirement
    let ps := extras requirement windings (orders requirement windings (patternBound us.length) us [])
    (if toroidal then cut us.length ps else .value ps).bind fun ps =>
      .value (if real then reversals ps ps else ps)

/-! ## Repetitions -/

/-- What `get_repetitions` looks at. -/
structure Wanted where
  differentialModeChoke : Bool
  commonMode : Bool
  ratios : ℕ
  printed : Bool
  leakage : Bool
  planarLayers : ℕ
  deriving DecidableEq

/-- `Coil::get_repetitions` (src/constructive_models/Coil.cpp:13943-13992). -/
def getRepetitions (w : Wanted) (toroidal : Bool) : List ℕ :=
  if w.differentialModeChoke then [1]
  else if toroidal then
    if w.commonMode then [2, 1]
    else if w.ratios = 0 then [1]
    else [1, 2]
  else if w.ratios = 0 then [1]
  else if w.printed then (List.range (w.planarLayers / (w.ratios + 1))).map fun i : ℕ => i + 1
  else if w.leakage then [2, 1]
  else [1, 2]

/-- The new pattern, one repetition after another from `repetition` on (src/constructive_models/Coil.cpp:14006-14014). A winding that does not exist is
undefined. `physical` are the turns of each winding times its parallels. -/
def oncePerRepetition (physical : List ℕ) (repetition : ℕ) : List ℕ → Outcome (List ℕ)
  | [] => .value []
  | w :: ws => (Outcome.index physical[w]?).bind fun n => (oncePerRepetition physical repetition ws).bind fun r =>
    .value (if repetition ≤ n then w :: r else r)

/-- The repetitions from `repetition` on (src/constructive_models/Coil.cpp:14006-14014). -/
def merged (physical pattern : List ℕ) : ℕ → ℕ → Outcome (List ℕ)
  | _, 0 => .value []
  | repetition, left + 1 => (oncePerRepetition physical repetition pattern).bind fun a => (merged physical pattern (repetition + 1) left).bind fun b =>
    .value (a ++ b)

/-- `Coil::check_pattern_and_repetitions_integrity` (src/constructive_models/Coil.cpp:13994-14018). -/
def integrity (physical pattern : List ℕ) (repetitions : ℕ) : Outcome (List ℕ × ℕ) :=
  if physical.any fun n : ℕ => decide (n < repetitions) then (merged physical pattern 1 repetitions).bind fun p => .value (p, 1)
  else .value (pattern, repetitions)

/-- What the loop over patterns goes through for one number of repetitions (src/advisers/CoilAdviser.cpp:487-491 and
src/advisers/MagneticFilter.cpp:167-170): the number of repetitions is written over and the next pattern is given what was left. -/
def triedPatterns (physical : List ℕ) : List (List ℕ) → ℕ → Outcome (List (List ℕ × ℕ))
  | [], _ => .value []
  | p :: ps, repetitions => (integrity physical p repetitions).bind fun a => (triedPatterns physical ps a.2).bind fun r => .value (a :: r)

/-- What the loop over repetitions goes through (src/advisers/CoilAdviser.cpp:485-491, src/advisers/MagneticFilter.cpp:166-170), when nothing stops
it. -/
def tried (physical : List ℕ) (patterns : List (List ℕ)) : List ℕ → Outcome (List (List ℕ × ℕ))
  | [] => .value []
  | r :: rs => (triedPatterns physical patterns r).bind fun a => (tried physical patterns rs).bind fun b => .value (a ++ b)

end Verif.Patterns
