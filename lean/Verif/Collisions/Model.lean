import Verif.Common.SMap
import Verif.Common.Round

/-! # Model of `check_collisions` (src/support/Utils.cpp:1601-1647)

Numbers are an ordered field with floor; `sqrt` is a parameter (the real square root in the theorems about
round windows), so that the rectangular case stays computable over the rationals. The messages written to
`std::cerr` are not modelled. -/

namespace Verif.Collisions

open Verif.Round

variable {N K : Type} [LinearOrder N] [Field K] [LinearOrder K] [IsStrictOrderedRing K] [FloorRing K]

/-- The tolerance `1e-8` of src/support/Utils.cpp:1617 and 1633. -/
def tol : K := 1 / 10 ^ 8

/-- Comparison of one pair of named boxes (src/support/Utils.cpp:1612-1642). `none` is undefined behaviour
(indexing past the end of a vector). -/
def pairCollides (sqrt : K → K) (round_ : Bool) (ld lc rd rc : List K) : Option Bool :=
  match lc[0]?, rc[0]?, lc[1]?, rc[1]? with
  | some lx, some rx, some ly, some ry =>
    let dist := roundFloat (sqrt (|lx - rx| ^ 2 + |ly - ry| ^ 2)) 9
    if round_ then
      match ld[0]?, rd[0]? with
      | some lw, some rw => some (decide (dist - roundFloat (lw / 2 + rw / 2) 9 < -tol))
      | _, _ => none
    else
      match ld[0]?, rd[0]?, ld[1]?, rd[1]? with
      | some lw, some rw, some lh, some rh =>
        let overlapX := roundFloat (lw / 2 + rw / 2) 9 - roundFloat |lx - rx| 9
        let overlapY := roundFloat (lh / 2 + rh / 2) 9 - roundFloat |ly - ry| 9
        some (decide (overlapX > tol ∧ overlapY > tol))
      | _, _, _, _ => none
  | _, _, _, _ => none

/-- `coordinatesByName[name]`: a missing name is inserted with an empty vector. -/
def coordsOf (coords : SMap N (List K)) (n : N) : List K := (coords.find? n).getD []

/-- The inner loop over the right-hand boxes (src/support/Utils.cpp:1606-1643). -/
def innerLoop (sqrt : K → K) (round_ : Bool) (coords : SMap N (List K)) (l : N × List K) :
    SMap N (List K) → Option Bool
  | [] => some false
  | r :: rest =>
    if r.1 = l.1 then innerLoop sqrt round_ coords l rest
    else match pairCollides sqrt round_ l.2 (coordsOf coords l.1) r.2 (coordsOf coords r.1) with
      | none => none
      | some true => some true
      | some false => innerLoop sqrt round_ coords l rest

/-- The outer loop over the left-hand boxes (src/support/Utils.cpp:1602-1644). -/
def outerLoop (sqrt : K → K) (round_ : Bool) (coords dims : SMap N (List K)) : SMap N (List K) → Option Bool
  | [] => some false
  | l :: rest =>
    match innerLoop sqrt round_ coords l dims with
    | none => none
    | some true => some true
    | some false => outerLoop sqrt round_ coords dims rest

/-- Models `check_collisions` (src/support/Utils.cpp:1601-1647). -/
def checkCollisions (sqrt : K → K) (dims coords : SMap N (List K)) (round_ : Bool) : Option Bool :=
  outerLoop sqrt round_ coords dims dims

end Verif.Collisions
