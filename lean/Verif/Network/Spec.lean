import Verif.Network.Model

/-! # What a network of reluctances has to do -/

namespace Verif.Network

/-- A network that can be solved: its columns from left to right are all of its columns, legs are positive and yokes not
negative. -/
structure Sound (net : Network) : Prop where
  order : net.order.Perm (List.range net.n)
  legs : ∀ c, c < net.n → 0 < net.legs c
  yokes : ∀ k, k + 1 < net.n → 0 ≤ net.yokes k
  some : 0 < net.n

/-- The laws of a magnetic circuit of legs between two yokes, from left to right: no flux is lost, and around each window the
sources of both legs are balanced by the drops of the legs and the yoke, which carries what came up the legs on its left. -/
structure Kirchhoff (order : List Nat) (legs yokes source flux : Vec) : Prop where
  conserved : (order.map flux).sum = 0
  window : ∀ (k a b : Nat), order[k]? = some a → order[k + 1]? = some b →
    legs a * flux a - source a + yokes k * ((order.take (k + 1)).map flux).sum = legs b * flux b - source b

/-- The main column: the first central one, or the first if none is central. -/
def IsMain (c : Core) (k : Nat) : Prop :=
  (∃ x, c.columns[k]? = some x ∧ x.central = true ∧ ∀ (j : Nat) (y : Column), j < k → c.columns[j]? = some y → y.central = false) ∨
  (k = 0 ∧ c.columns ≠ [] ∧ ∀ y ∈ c.columns, y.central = false)

/-- A window that exists is around a column: that it names, or the main one. -/
def Around (c : Core) (w : Int) (k : Nat) : Prop :=
  0 ≤ w ∧ ∃ x, c.windows[w.toNat]? = some x ∧ ((x.column = none ∧ IsMain c k) ∨ (x.column = some (k : Int) ∧ k < c.columns.length))

/-- A winding has copper in a window: a conduction section of it says so. -/
def WoundIn (sections : List Section) (name : String) (w : Int) : Prop :=
  ∃ s ∈ sections, s.conduction = true ∧ name ∈ s.windings ∧ s.window = some w

/-- The nearest column to a place, the first of equals. -/
def IsNearest (cs : List Column) (p : ℚ × ℚ) (k : Nat) : Prop :=
  ∃ c, cs[k]? = some c ∧ ∀ (j : Nat) (d : Column), cs[j]? = some d →
    |c.x - p.1| + |c.z - p.2| ≤ |d.x - p.1| + |d.z - p.2| ∧ (j < k → |c.x - p.1| + |c.z - p.2| < |d.x - p.1| + |d.z - p.2|)

/-- The reluctance of the gaps of a column, in series. -/
noncomputable def gapsOf (cs : List Column) (places : List (ℚ × ℚ)) (rs : List ℚ) (k : Nat) : ℚ :=
  open Classical in ((places.zip rs).map fun p => if IsNearest cs p.1 k then p.2 else 0).sum

end Verif.Network
