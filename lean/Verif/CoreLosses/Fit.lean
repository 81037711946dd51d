import Mathlib.Algebra.Order.Field.Basic
import Verif.CoreLosses.Select

/-!
# Core losses: points and ranges of the coefficients fitted (src/physical_models/CoreLosses.cpp)
-/

namespace Verif.CoreLosses

variable {K : Type} [Field K] [LinearOrder K]

/-- A measured point: the frequency, the peak of the flux density and the temperature (CoreLosses.cpp 582, 598, 661). -/
structure Measured (K : Type) where
  f : K
  peak : K
  temperature : K
  deriving DecidableEq, Repr

/-- A range of frequencies and the points of it. -/
abbrev Chunk (K : Type) := (K × K) × List (Measured K)

/-- The coefficients sought: six when there are several temperatures, and three otherwise (CoreLosses.cpp 580-589). -/
def unknowns (points : List (Measured K)) : ℕ := if (points.map Measured.temperature).eraseDups.length > 1 then 6 else 3

/-- The points of each of several ranges: those from 80 % of its lower end to 120 % of its upper one (CoreLosses.cpp 593-605). -/
def assign (points : List (Measured K)) (ranges : List (K × K)) : List (Chunk K) :=
  ranges.map fun r => (r, points.filter fun p => r.1 * (8 / 10) ≤ p.f ∧ p.f ≤ r.2 * (12 / 10))

/-- The range of two chunks joined: it is widened within the loop over the points that move (CoreLosses.cpp 629-632 and 639-642), so
that it remains that of the chunk they move to when there are none. -/
def widened (remains a b : K × K) (moved : List (Measured K)) : K × K := if moved = [] then remains else (a.1, b.2)

/-- One turn over the chunks after the first (CoreLosses.cpp 614-617 and 638-647): the first without more points than coefficients is
joined to the one before, which is extended if it has any. -/
def joinBack (u : ℕ) : Chunk K → List (Chunk K) → Option (List (Chunk K))
  | _, [] => none
  | a, b :: l =>
    if b.2.length ≤ u then some ((widened a.1 a.1 b.1 b.2, a.2 ++ b.2) :: l)
    else (joinBack u b l).map (a :: ·)

/-- One turn of the cleaning of two chunks or more (CoreLosses.cpp 614-648): the first chunk is joined to the second. -/
def join (u : ℕ) : List (Chunk K) → Option (List (Chunk K))
  | a :: b :: l =>
    if a.2.length ≤ u then some ((widened b.1 a.1 b.1 a.2, b.2 ++ a.2) :: l)
    else joinBack u a (b :: l)
  | _ => none

/-- The cleaning of the chunks (CoreLosses.cpp 610-650), with the coefficients sought at the end; `turns` bounds the number of turns. -/
def clean (u : ℕ) : ℕ → List (Chunk K) → Res (ℕ × List (Chunk K))
  | 0, l => .ok (u, l)
  | turns + 1, l =>
    match l with
    | [a] => if a.2.length ≤ u then (if a.2.length > 3 then .ok (3, l) else .throws .tooFewPoints) else .ok (u, l)
    | _ => match join u l with
      | none => .ok (u, l)
      | some l' => clean u turns l'

/-- What refuses a fit (CoreLosses.cpp 656-679): a chunk with a single frequency or a single flux density. -/
def refusal : List (Chunk K) → Option Err
  | [] => none
  | c :: l =>
    if (c.2.map Measured.f).eraseDups.length < 2 then some .sameFrequency
    else if (c.2.map Measured.peak).eraseDups.length < 2 then some .sameFluxDensity
    else refusal l

/-- The ranges of the coefficients that `calculate_steinmetz_coefficients` fits, and how many of them (CoreLosses.cpp 562-808), the fit
itself left aside; without ranges, the first of them is read out of bounds (671, 801). -/
def fitted (points : List (Measured K)) (ranges : List (K × K)) : Res (ℕ × List (K × K)) :=
  match ranges with
  | [] =>
    if points.length ≤ 3 then .throws .tooFewPoints else .ub
  | r :: rest =>
    let chunks := if rest = [] then [(r, points)] else assign points (r :: rest)
    (clean (unknowns points) chunks.length chunks).bind fun c =>
      match refusal c.2 with
      | some e => .throws e
      | none => .ok (c.1, c.2.map Prod.fst)

end Verif.CoreLosses
