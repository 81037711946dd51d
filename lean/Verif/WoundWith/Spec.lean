import Verif.WoundWith.Model

/-! # What is expected of windings wound together, in terms of the windings and of what is wound -/

namespace Verif.WoundWith

/-- Windings have different names. -/
def Named (ws : List Winding) : Prop := (ws.map fun w => w.name).Nodup

/-- A winding names another one in `woundWith`. -/
def Lists (a b : Winding) : Prop := b.name ∈ a.woundWith.getD []

/-- Windings have different names, and their lists name windings that exist and agree with each other. -/
structure Paired (ws : List Winding) : Prop where
  named : Named ws
  exist : ∀ a ∈ ws, ∀ n ∈ a.woundWith.getD [], ∃ b ∈ ws, b.name = n
  both : ∀ a ∈ ws, ∀ b ∈ ws, Lists a b → Lists b a
  complete : ∀ a ∈ ws, ∀ b ∈ ws, ∀ c ∈ ws, Lists a b → Lists b c → a = c ∨ Lists a c

/-- Besides, windings wound together are alike. -/
structure Agreed (ws : List Winding) : Prop extends Paired ws where
  alike : ∀ a ∈ ws, ∀ b ∈ ws, Lists a b → a.parallels = b.parallels ∧ a.side = b.side ∧ a.wire = b.wire

/-- Wound together: the same winding, or one names the other. -/
def Together (ws : List Winding) (i j : Nat) : Prop :=
  ∃ a b, ws[i]? = some a ∧ ws[j]? = some b ∧ (i = j ∨ Lists a b)

/-- Turns of the winding at an index. -/
def turnsAt (ws : List Winding) (i : Nat) : Nat := match ws[i]? with
  | some w => w.turns
  | none => 0

/-- Connections of the winding at an index. -/
def connectionsAt (ws : List Winding) (i : Nat) : List Nat := match ws[i]? with
  | some w => w.connections
  | none => []

/-- One winding for each group of windings wound together: every winding is in one group, the windings of a group are
those wound together, and the one winding has all their turns and connections and is like each of them. -/
structure Merged (ws : List Winding) (groups : List (List Nat)) (vws : List Winding) : Prop where
  every : groups.flatten.Perm (List.range ws.length)
  together : ∀ g ∈ groups, ∀ i ∈ g, ∀ j, j ∈ g ↔ Together ws i j
  count : vws.length = groups.length
  merged : ∀ (v : Nat) (g : List Nat) (x : Winding), groups[v]? = some g → vws[v]? = some x →
    x.turns = (g.map (turnsAt ws)).sum ∧ x.connections = g.flatMap (connectionsAt ws) ∧
    ∀ i ∈ g, ∀ w, ws[i]? = some w → w.parallels = x.parallels ∧ w.side = x.side ∧ w.wire = x.wire
  names : (vws.map fun w => w.name).Nodup

/-- A pattern of groups: the groups of the windings of the pattern in order, without repeating one next to itself. -/
structure MergedPattern (groups : List (List Nat)) (pattern vpattern : List Nat) : Prop where
  each : ∀ v, v ∈ vpattern ↔ ∃ i ∈ pattern, ∃ g, groups[v]? = some g ∧ i ∈ g
  apart : vpattern.IsChain (· ≠ ·)

/-- Proportions of groups: the sum of those of their windings. -/
def MergedProportions (groups : List (List Nat)) (proportions vproportions : List ℚ) : Prop :=
  vproportions = groups.map fun g => (g.map fun i => proportions[i]?.getD 0).sum

/-- A winding of a name is in a group of windings. -/
def InGroup (ws : List Winding) (g : List Nat) (name : String) : Prop := ∃ i ∈ g, ∃ w, ws[i]? = some w ∧ w.name = name

instance (ws : List Winding) (g : List Nat) (name : String) : Decidable (InGroup ws g name) :=
  decidable_of_iff (∃ i ∈ g, ∃ w ∈ ws[i]?, w.name = name) (by simp [InGroup])

/-- A group of the coil with merged windings: each group of windings that is wound together is in it once, with the
proportions of the first of its windings that was in it, when one of them was in it; nothing else is. -/
structure MergedGroup (ws : List Winding) (groups : List (List Nat)) (vws : List Winding) (a b : Group) : Prop where
  rest : b.rest = a.rest
  once : (b.parts.map fun p => p.winding).Nodup
  named : ∀ p ∈ b.parts, p.winding ∈ vws.map fun w => w.name
  first : ∀ (v : Nat) (g : List Nat) (x : Winding), groups[v]? = some g → vws[v]? = some x →
    b.parts.find? (fun p => p.winding == x.name) =
      (a.parts.find? fun p => decide (InGroup ws g p.winding)).map fun p => { p with winding := x.name }

/-- The groups of the coil with merged windings: one for each, or none when there were none. -/
def MergedGroups (ws : List Winding) (groups : List (List Nat)) (vws : List Winding) :
    Option (List Group) → Option (List Group) → Prop
  | some gs, some vgs => List.Forall₂ (MergedGroup ws groups vws) gs vgs
  | none, none => True
  | _, _ => False

/-- A section or layer is insulation or holds one of these windings alone. -/
def HoldsOne (ws : List Winding) (s : Piece) : Prop :=
  s.insulation = true ∨ ∃ p, s.parts = [p] ∧ p.winding ∈ ws.map fun w => w.name

/-- What is wound is what was asked for: sections and layers of one winding each, and all turns of every winding. -/
structure Proper (winder : Winder) : Prop where
  sections : ∀ ws g p q l, winder.sections ws g p q = .ok (some l) → ∀ s ∈ l, HoldsOne ws s
  layers : ∀ ws s l, (∀ x ∈ s, HoldsOne ws x) → winder.layers ws s = .ok (some l) → ∀ x ∈ l, HoldsOne ws x
  turns : ∀ ws s x ts, winder.turns ws s x = .ok (some ts) → (∀ t ∈ ts, t.winding ∈ ws.map fun w => w.name) ∧
    ((ws.map fun w => w.name).Nodup → ∀ w ∈ ws, (ts.filter fun t => t.winding == w.name).length = w.turns * w.parallels)

/-- How many turns of a winding are on one of its parallels. -/
def turnsOn (l : List Turn) (name : String) (p : Nat) : Nat :=
  (l.filter fun t => t.winding == name && t.parallel == p).length

/-- Each winding has all its turns on each of its parallels, and there are no others. -/
def AllTurns (ws : List Winding) (l : List Turn) : Prop :=
  (∀ w ∈ ws, ∀ p, turnsOn l w.name p = if p < w.parallels then w.turns else 0) ∧
  ∀ t ∈ l, ∃ w ∈ ws, t.winding = w.name

end Verif.WoundWith
