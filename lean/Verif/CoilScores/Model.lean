import Verif.Scoring.Model

/-!
# The scores of the coils that are wound

Models `CoilAdviser::score_magnetics` (src/advisers/CoilAdviser.cpp:294-333) with the normalisation of
src/support/Utils.cpp:3127-3133 (`normalizeList` of the area Scoring). A filter answers the same for the same coil; what it
writes into the coil and the record of scores by reference (309) are not modelled.
-/

namespace Verif.CoilScores

open Verif.Scoring

variable {K : Type} [Field K] [LinearOrder K]

/-- A filter of the flow: what it answers for a coil (src/advisers/CoilAdviser.cpp:304) and how its scores are normalised. -/
structure Filter (M K : Type) where
  accepts : M → Bool
  raw : M → Num K
  weight : K
  invert : Bool
  log : Bool

/-- What the scoring ends in: valid and invalid coils with their scores, the exception of the normalisation, or scores that
are not finite. -/
inductive Answer (M K : Type) where
  | scored (valid invalid : List (M × K))
  | threw
  | notFinite
deriving DecidableEq

/-- Totals on the way. -/
inductive Totals (K : Type) where
  | sums (l : List K)
  | threw
  | notFinite
deriving DecidableEq

/-- All of them, when all are there. -/
def allSome : List (Option K) → Option (List K)
  | [] => some []
  | none :: _ => none
  | some x :: l => (allSome l).map (x :: ·)

/-- The loop over the filters (src/advisers/CoilAdviser.cpp:300-314). Without coils the normalisation is not called; of an empty
list it gives an empty one. -/
def totals {M : Type} (lg : K → K) (ms : List M) : List (Filter M K) → List K → Totals K
  | [], t => .sums t
  | f :: fs, t =>
    match normalizeList lg f.weight f.invert f.log (ms.map f.raw) with
    | none => .threw
    | some l => match allSome l with
      | none => .notFinite
      | some s => totals lg ms fs (t.zipWith (· + ·) s)

/-- The flag of a coil (src/advisers/CoilAdviser.cpp:296, 305-307). -/
def flag {M : Type} (fs : List (Filter M K)) (m : M) : Bool := fs.foldl (fun b f => if f.accepts m = false then false else b) true

/-- Models `score_magnetics` (src/advisers/CoilAdviser.cpp:294-333). -/
def scoreMagnetics {M : Type} (lg : K → K) (fs : List (Filter M K)) (ms : List M) : Answer M K :=
  match totals lg ms fs (ms.map fun _ => 0) with
  | .threw => .threw
  | .notFinite => .notFinite
  | .sums t => .scored ((ms.zip t).filter fun p => flag fs p.1) ((ms.zip t).filter fun p => !flag fs p.1)

end Verif.CoilScores
