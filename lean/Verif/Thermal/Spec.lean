import Verif.Thermal.Model

/-!
# What is asked of temperatures

Said of heat flows and of paths, not of matrices.
-/

namespace Verif.Thermal

open Finset

variable {K : Type} [Field K] [LinearOrder K] [IsStrictOrderedRing K] {n : Nat}

/-- The heat that leaves a node through a connection at some temperatures. -/
def leaves (t : Vec n K) (v : Fin n) (l : Link n K) : K :=
  (if l.i = v then (t l.i - t l.j) * l.g else 0) + if l.j = v then (t l.j - t l.i) * l.g else 0

/-- The heat that leaves a node. -/
def outflow (ls : List (Link n K)) (t : Vec n K) (v : Fin n) : K := (ls.map (leaves t v)).sum

/-- Given temperatures are kept and every other node sheds its losses, no more and no less. -/
def Balanced (ls : List (Link n K)) (given : Fin n → Option K) (power : Vec n K) (t : Vec n K) : Prop :=
  ∀ v, match given v with
    | some x => t v = x
    | none => outflow ls t v = power v

/-- All connections conduct. -/
def Conducting (ls : List (Link n K)) : Prop := ∀ l ∈ ls, 0 < l.g

/-- A connection joins two nodes, in either sense. -/
def Joins (ls : List (Link n K)) (u v : Fin n) : Prop := ∃ l ∈ ls, (l.i = u ∧ l.j = v) ∨ (l.i = v ∧ l.j = u)

/-- A node has a path of so many connections to a node of given temperature. -/
inductive Reaches (ls : List (Link n K)) (given : Fin n → Option K) : Nat → Fin n → Prop
  | here {v : Fin n} (h : (given v).isSome) : Reaches ls given 0 v
  | step {k : Nat} {u v : Fin n} (h : Joins ls u v) (hv : Reaches ls given k v) : Reaches ls given (k + 1) u

/-- A square root. -/
def IsRoot (rt : K → K) : Prop := ∀ x, 0 ≤ x → 0 ≤ rt x ∧ rt x * rt x = x

end Verif.Thermal
