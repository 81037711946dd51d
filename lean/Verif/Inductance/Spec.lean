import Verif.Inductance.Model

/-! # What inductances are

Independent of how they are computed. -/

namespace Verif.Inductance

open Finset

variable {K : Type} [Field K] [LinearOrder K] {n : Nat}

/-- Twice the energy that a matrix of inductances stores for some currents. -/
def quadratic (l : Mat n K) (x : Vec n K) : K := ∑ i, ∑ j, x i * l i j * x j

/-- The way around the column at a point: around a round column a circle, and around a rectangular one its four sides and a
circle for the corners; half of it in a round window, where the other half is passed by points outside. -/
def around (pi : K) (b : Bobbin K) (p : Point n K) : K :=
  let far := if b.roundWindow then |p.height + b.width| else p.x
  let sides := if b.roundColumn then 0 else 2 * (2 * b.width + 2 * b.depth)
  let radius := if b.roundColumn then far else far - b.width
  (sides + 2 * pi * radius) / if b.roundWindow then 2 else 1

/-- The energy of the magnetic field of some currents in the window: at each point half the permeability times the square of
the field, over the area and the path of the point. -/
def Energy (g : Grid n K) (x : Vec n K) : K :=
  (g.points.map fun p => g.permeability / 2 * ((∑ w, p.re w * x w) ^ 2 + (∑ w, p.im w * x w) ^ 2) *
    (g.area * around g.pi g.bobbin p)).sum

/-- A grid as geometry gives it: constants are positive and no path is negative. -/
structure Sound (g : Grid n K) : Prop where
  permeability : 0 ≤ g.permeability
  area : 0 ≤ g.area
  paths : ∀ p ∈ g.points, 0 ≤ around g.pi g.bobbin p

/-- A matrix of inductances of something that stores energy and has no preferred winding. -/
structure Passive (l : Mat n K) : Prop where
  symmetric : ∀ i j, l i j = l j i
  stored : ∀ x, 0 ≤ quadratic l x

/-- A square root. -/
def IsRoot (rt : K → K) : Prop := ∀ x, 0 ≤ x → 0 ≤ rt x ∧ rt x * rt x = x

/-- Flux linked by winding `j`, for some currents. -/
def linked (l : Mat n K) (x : Vec n K) (j : Fin n) : K := ∑ i, l j i * x i

/-- A matrix undoes another. -/
def Undoes (b l : Mat n K) : Prop :=
  (∀ x j, linked b (linked l x) j = x j) ∧ ∀ x j, linked l (linked b x) j = x j

end Verif.Inductance
