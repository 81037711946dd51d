import Mathlib.Algebra.Order.Field.Basic
import Mathlib.Algebra.Order.Field.Rat
import Mathlib.Data.List.Basic

/-! # Model of the margins of sections
(src/constructive_models/Coil.cpp:445-471, 4061-4084, 4294-4332, 4348-4366, 6821-6878, 6880-6988, 8301-8303, 8387-8418, 8681-8741, 13424-13437)

Numbers are an ordered field. The vector of margins is a function from the ordinal of a section with windings, zero beyond
the size of the vector: it is resized with zeros before any ordinal is read. -/

namespace Verif.Margins

variable {K : Type} [Field K] [LinearOrder K] [IsStrictOrderedRing K]

/-- An entry of the ordered sections: windings with their winding and space, or insulation. -/
inductive Entry (K : Type) where
  | cond (winding : Nat) (space : K)
  | ins
  deriving DecidableEq

/-- What is read of the coil: the margin tape distance between two windings for those with an interface, and whether there is a
section of insulation between two windings. -/
structure Ctx (K : Type) where
  ifaces : List ((Nat × Nat) × K)
  insulated : Nat → Nat → Bool

/-- Outcome of a step. -/
inductive Res (α : Type) where
  | ok (a : α)
  | thrown
  | ub

abbrev Margins (K : Type) := Nat → K × K

/-- The margins with those of one ordinal replaced. -/
def setAt (m : Margins K) (i : Nat) (v : K × K) : Margins K := fun j => if j = i then v else m j

/-- A margin raised to half a distance on both edges (src/constructive_models/Coil.cpp:6872-6873). -/
def raised (d : K) (p : K × K) : K × K := (max p.1 (d / 2), max p.2 (d / 2))

/-- The section and the one before raised (src/constructive_models/Coil.cpp:6869-6875). -/
def raiseBoth (d : K) (k : Nat) (m : Margins K) : Margins K :=
  setAt (setAt m k (raised d (m k))) (k - 1) (raised d (setAt m k (raised d (m k)) (k - 1)))

/-- One section of `apply_margin_tape` (src/constructive_models/Coil.cpp:6841-6876). `before`: the entries before it, nearest
first; insulation has no winding, so that it has no interface. What is left of the margins by an exception is not modelled. -/
def floorStep (c : Ctx K) (before : List (Entry K)) (w k : Nat) (m : Margins K) : Res (Margins K) :=
  if c.ifaces.isEmpty then .ok m
  else match before with
    | [] => .ok m
    | .cond v _ :: _ => if c.insulated v w then .thrown else .ok m
    | [.ins] => .ub
    | .ins :: .ins :: _ => .ok m
    | .ins :: .cond v _ :: _ =>
      match c.ifaces.lookup (v, w) with
      | none => .ok m
      | some d => .ok (raiseBoth d k m)

/-- Models `apply_margin_tape` (src/constructive_models/Coil.cpp:6821-6878): `k` is the ordinal of the next section. -/
def floors (c : Ctx K) : List (Entry K) → List (Entry K) → Nat → Margins K → Res (Margins K)
  | _, [], _, m => .ok m
  | before, .ins :: r, k, m => floors c (.ins :: before) r k m
  | before, .cond w s :: r, k, m =>
    match floorStep c before w k m with
    | .ok m' => floors c (.cond w s :: before) r (k + 1) m'
    | .thrown => .thrown
    | .ub => .ub

/-- Number of sections with windings. -/
def condCount : List (Entry K) → Nat
  | [] => 0
  | .cond _ _ :: r => condCount r + 1
  | .ins :: r => condCount r

/-- The entry whose margin faces that of entry `i` (src/constructive_models/Coil.cpp:6940-6957). -/
def partner (wraps : Bool) (entries : List (Entry K)) (i : Nat) : Option Nat :=
  if i + 2 < entries.length then
    if !wraps && !(decide (entries[i + 1]? = some .ins)) then none else some (i + 2)
  else if wraps then some 0
  else none

/-- `ordinalByOrderedIndex` (src/constructive_models/Coil.cpp:6887-6894). -/
def ordinal (offset : Nat) (entries : List (Entry K)) (i : Nat) : Nat := offset + condCount (entries.take i)

/-- Two margins split by space (src/constructive_models/Coil.cpp:6973-6984). -/
def split (wraps : Bool) (l r : Nat) (a b : K) (m : Margins K) : Margins K :=
  if wraps then
    let t := (m l).2 + (m r).1
    let m1 := setAt m l ((m l).1, a / (a + b) * t)
    setAt m1 r (b / (a + b) * t, (m1 r).2)
  else
    let t0 := (m l).1 + (m r).1
    let t1 := (m l).2 + (m r).2
    setAt (setAt m l (a / (a + b) * t0, a / (a + b) * t1)) r (b / (a + b) * t0, b / (a + b) * t1)

/-- The split of two entries, if both have windings and some space (src/constructive_models/Coil.cpp:6959-6984). In a window
that does not wrap the two are different. -/
def splitPair (wraps : Bool) (offset : Nat) (entries : List (Entry K)) (i j : Nat) (m : Margins K) : Margins K :=
  match entries[i]?, entries[j]? with
  | some (.cond _ a), some (.cond _ b) =>
    if a + b ≤ 0 then m else split wraps (ordinal offset entries i) (ordinal offset entries j) a b m
  | _, _ => m

/-- One entry of `equalize_margins` (src/constructive_models/Coil.cpp:6929-6987). -/
def eqStep (c : Ctx K) (wraps : Bool) (offset : Nat) (entries : List (Entry K)) (m : Margins K) (i : Nat) : Margins K :=
  if c.ifaces.isEmpty then m
  else match partner wraps entries i with
    | none => m
    | some j => splitPair wraps offset entries i j m

/-- Models `equalize_margins` (src/constructive_models/Coil.cpp:6880-6988). `wraps`: the window is round. -/
def equalise (c : Ctx K) (wraps : Bool) (offset : Nat) (entries : List (Entry K)) (m : Margins K) : Margins K :=
  (List.range entries.length).foldl (eqStep c wraps offset entries) m

/-- The margins of a group (src/constructive_models/Coil.cpp:8411-8418). `on`: the setting to equalise margins. -/
def plan (c : Ctx K) (on wraps : Bool) (offset : Nat) (entries : List (Entry K)) (m : Margins K) : Res (Margins K) :=
  match floors c [] entries offset m with
  | .ok m' => .ok (if on then equalise c wraps offset entries m' else m')
  | e => e

/-- The margins when the same coil is wound `n` times, or `none` when one throws. The margins stay between windings; the
entries are the same. -/
def windings (c : Ctx K) (on wraps : Bool) (entries : List (Entry K)) (m : Margins K) : Nat → Option (Margins K)
  | 0 => some m
  | n + 1 =>
    match windings c on wraps entries m n with
    | none => none
    | some m' =>
      match plan c on wraps 0 entries m' with
      | .ok r => some r
      | _ => none

/-! ## Insulation replaced by margins -/

/-- The windings of a section of a round window and of the next, which after the last is the first
(src/constructive_models/Coil.cpp:8699-8712). -/
def keyAt (ws : List Nat) (i : Nat) : Option (Nat × Nat) :=
  match ws[i]?, ws[(i + 1) % ws.length]? with
  | some v, some w => some (v, w)
  | _, _ => none

/-- The margin that is held to be between a section and the next (src/constructive_models/Coil.cpp:8713-8728). `ins`: the angle
of the insulation between two windings, for those that have one. -/
def heldMargin (c : Ctx K) (offset : Nat) (ws : List Nat) (m : Margins K) (key : Nat × Nat) (i : Nat) : K :=
  max ((c.ifaces.lookup key).getD 0) ((m (offset + i)).2 + (m (offset + (i + 1) % ws.length)).1)

/-- One section of `remove_insulation_if_margin_is_enough` (src/constructive_models/Coil.cpp:8696-8740). `angle`:
`wound_distance_to_angle` at the radius of the window. -/
def removeStep (angle : K → K) (c : Ctx K) (offset : Nat) (ws : List Nat) (m : Margins K) (ins : Nat × Nat → Option K) (i : Nat) :
    Nat × Nat → Option K :=
  match keyAt ws i with
  | none => ins
  | some key =>
    match ins key with
    | none => ins
    | some x => if x < angle (heldMargin c offset ws m key i) then fun k => if k = key then some 0 else ins k else ins

/-- Models `remove_insulation_if_margin_is_enough` (src/constructive_models/Coil.cpp:8681-8741), which comes before the margins
are planned. -/
def removeAll (angle : K → K) (c : Ctx K) (offset : Nat) (ws : List Nat) (m : Margins K) (ins : Nat × Nat → Option K) :
    Nat × Nat → Option K :=
  (List.range ws.length).foldl (removeStep angle c offset ws m) ins

/-! ## Margins recovered from a wound coil -/

/-- The transient margins of a coil: the vector of margins and whether it is empty, the winding of each ordinal recovered
(`none` beyond the size of the vector) and the margin of each winding, and whether they were cleared on purpose. -/
structure Memory (K : Type) where
  empty : Bool
  margins : Margins K
  owners : Nat → Option String
  merged : String → Option (K × K)
  cleared : Bool

/-- The merged margin of a winding with one more section (src/constructive_models/Coil.cpp:4318-4325). -/
def merge (old : Option (K × K)) (p : K × K) : Option (K × K) :=
  match old with
  | none => some p
  | some q => some (max q.1 p.1, max q.2 p.2)

/-- The merged margin of a winding over its sections. -/
def mergedOf (n : String) : List (String × K × K) → Option (K × K) → Option (K × K)
  | [], acc => acc
  | (o, p) :: r, acc => mergedOf n r (if o = n then merge acc p else acc)

/-- Models the recovery of margins (src/constructive_models/Coil.cpp:4294-4332). `tape`: margin tape is allowed. `secs`: the winding
and margins of the sections with windings of the coil, if it has sections. -/
def recover (tape : Bool) (secs : Option (List (String × K × K))) (s : Memory K) : Memory K :=
  match secs with
  | none => s
  | some l =>
    if s.empty && !s.cleared && tape && l.any (fun x => decide (0 < x.2.1) || decide (0 < x.2.2)) then
      { empty := false
        margins := fun i => ((l[i]?).map Prod.snd).getD (0, 0)
        owners := fun i => (l[i]?).map Prod.fst
        merged := fun n => mergedOf n l none
        cleared := s.cleared }
    else s

/-- One section of the remap of margins (src/constructive_models/Coil.cpp:8394-8406). -/
def remapOne (s : Memory K) (k : Nat) (n : String) : Memory K :=
  if s.owners k = some n then s
  else
    { s with
      empty := false
      margins := setAt s.margins k ((s.merged n).getD (0, 0))
      owners := fun j => if j = k then some n else s.owners j }

/-- Models the remap of margins (src/constructive_models/Coil.cpp:8387-8409) for a coil whose margins were recovered. `names`: the
windings of the sections of the group. -/
def remap (s : Memory K) (k : Nat) : List String → Memory K
  | [] => s
  | n :: r => remap (remapOne s k n) (k + 1) r

/-! ## Winding and preloading -/

/-- How a winding ends. -/
inductive Ending where
  | wound
  | failed
  | thrown
  deriving DecidableEq

/-- Models `wind_inner` from the recovery on (src/constructive_models/Coil.cpp:4294-4366): `gate` is the exception for planar wires
with real winding geometry; `rest` what follows, with whether there are turns. -/
def windInner (tape gate : Bool) (secs : Option (List (String × K × K))) (rest : Memory K → Ending × Memory K × Bool)
    (s : Memory K) : Ending × Memory K × Bool :=
  if gate then (.thrown, recover tape secs s, false) else rest (recover tape secs s)

/-- Models `wind` (src/constructive_models/Coil.cpp:4061-4084): an exception goes through. -/
def wind (inner : Memory K → Ending × Memory K × Bool) (s : Memory K) : Ending × Memory K :=
  match inner s with
  | (.failed, s', turns) => (.failed, if turns then s' else s)
  | (e, s', _) => (e, s')

/-- Models `preload_margins` on the vector of margins (src/constructive_models/Coil.cpp:13424-13437). -/
def preload (vector pairs : List (K × K)) : List (K × K) := vector ++ pairs

/-- The vector resized by a winding of `n` sections (src/constructive_models/Coil.cpp:6831-6834). -/
def grown (n : Nat) (vector : List (K × K)) : List (K × K) := vector ++ List.replicate (n - vector.length) (0, 0)

end Verif.Margins
