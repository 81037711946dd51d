import Mathlib.Data.List.Basic
import Mathlib.Algebra.BigOperators.Group.List.Basic
import Mathlib.Algebra.Order.Field.Basic

/-!
# Model of the combinations of windings (src/advisers/MagneticCombinator.cpp)

Numbers of turns and parallels are natural numbers without overflow. A winding of a virtual magnetic is the combination it was made of;
its name is the list of windings (`vector_to_string`, 29-37, read back by `get_winding_indexes`, 108-116: decimal numbers with commas
between, which give the list back). Core, bobbin and wires are not modelled.
-/

namespace Verif.Combinator

/-- `IsolationSide` (MAS.hpp): the first four have a meaning here. -/
inductive Side where
  | primary
  | secondary
  | tertiary
  | quaternary
  | further (n : ℕ)
  deriving DecidableEq

/-- `ConnectionElement` (MAS.hpp): what is used of it. -/
structure Pin where
  direction : Option Bool
  name : Option String
  deriving DecidableEq

/-- A winding of the coil. -/
structure Winding where
  name : String
  side : Side
  turns : ℕ
  parallels : ℕ
  connections : Option (List Pin)
  deriving DecidableEq

/-- `WindingCombination` (src/advisers/MagneticCombinator.h:34-44), without the combinations it is made of, which nothing reads. -/
structure Comb where
  name : String
  connections : Option (List Pin)
  turns : ℕ
  parallels : ℕ
  indexes : List ℕ
  isParallel : Bool
  side : Side
  deriving DecidableEq

/-- Models `repeated_windings` (src/advisers/MagneticCombinator.cpp:17-27). -/
def repeated (left right : List ℕ) : Bool := left.any (fun i => right.contains i)

/-- Two pins with directions and names are tapped (src/advisers/MagneticCombinator.cpp:49, 59-60). -/
def taps (p q : Pin) : Bool :=
  p.direction.isSome && p.name.isSome && q.direction.isSome && q.name.isSome && (q.direction != p.direction) && (p.name == q.name)

/-- Models `get_compulsory_series_connections` (src/advisers/MagneticCombinator.cpp:39-71) for the combination `a` at a position. -/
def compulsory (all : List Comb) (i : ℕ) (a : Comb) : List String :=
  (a.connections.getD []).flatMap (fun p => all.zipIdx.flatMap (fun o =>
    if o.2 = i then [] else ((o.1.connections.getD []).filter (fun q => taps p q)).map (fun _ => o.1.name)))

/-- The connections of two (src/advisers/MagneticCombinator.cpp:376-384 and 406-414). -/
def joinPins (a b : Option (List Pin)) : Option (List Pin) :=
  match a, b with
  | some x, some y => some (x ++ y)
  | _, _ => none

/-- Two in series (src/advisers/MagneticCombinator.cpp:367-393). -/
def series (a b : Comb) : Comb :=
  ⟨a.name ++ "-" ++ b.name, joinPins a.connections b.connections, a.turns + b.turns, max a.parallels b.parallels, a.indexes ++ b.indexes, false, a.side⟩

/-- Two in parallel (src/advisers/MagneticCombinator.cpp:398-423). -/
def parallel (a b : Comb) : Comb :=
  ⟨a.name ++ "-" ++ b.name, joinPins a.connections b.connections, a.turns, a.parallels + b.parallels, a.indexes ++ b.indexes, true, a.side⟩

/-- What a pair is combined to (src/advisers/MagneticCombinator.cpp:338-423). -/
def joined (all : List Comb) (limit i : ℕ) (a b : Comb) : List Comb :=
  if repeated a.indexes b.indexes then []
  else if a.side ≠ b.side then []
  else if a.side = .tertiary ∨ b.side = .tertiary then []
  else if a.side = .quaternary ∨ b.side = .quaternary then []
  else if compulsory all i a ≠ [] ∧ ¬ b.name ∈ compulsory all i a then []
  else
    (if a.indexes.length + b.indexes.length ≤ limit then [series a b] else []) ++
      (if a.turns = b.turns ∧ b.isParallel = false ∧ b.isParallel = false then [parallel a b] else [])

/-- The pairs of a list whose first is at a position. -/
def combineFrom (all : List Comb) (limit : ℕ) : ℕ → List Comb → List Comb
  | _, [] => []
  | i, a :: rest => rest.flatMap (fun b => joined all limit i a b) ++ combineFrom all limit (i + 1) rest

/-- Models `calculate_combinations` (src/advisers/MagneticCombinator.cpp:332-428). -/
def combine (all : List Comb) (limit : ℕ) : List Comb := combineFrom all limit 0 all

/-- A winding on its own (src/advisers/MagneticCombinator.cpp:308-319). -/
def alone (i : ℕ) (w : Winding) : Comb := ⟨w.name, w.connections, w.turns, w.parallels, [i], false, w.side⟩

/-- The levels of combinations (src/advisers/MagneticCombinator.cpp:321-327). -/
def levels (limit : ℕ) : ℕ → List Comb → List Comb
  | 0, cs => cs
  | n + 1, cs => levels limit n (cs ++ combine cs limit)

/-- Models `calculate_coil_combinations` (src/advisers/MagneticCombinator.cpp:301-330); three levels at most (MagneticCombinator.h:29). -/
def combinations (ws : List Winding) (desired : ℕ) : List Comb :=
  if ws.length < desired then []
  else levels (ws.length - desired + 1) (min 3 (ws.length - desired)) (ws.zipIdx.map (fun w => alone w.2 w.1))

/-- A virtual magnetic: the combinations its windings were made of. -/
abbrev Virtual := List Comb

/-- `get_winding_indexes` (src/advisers/MagneticCombinator.cpp:108-116): all the windings in use, without the borders between them. -/
def used (v : Virtual) : List ℕ := v.flatMap Comb.indexes

/-- The virtual magnetics and what was recorded under the names of their windings, the latest first. -/
structure Found where
  records : List (List ℕ × Comb)
  virtuals : List Virtual
  deriving DecidableEq

/-- The primaries (src/advisers/MagneticCombinator.cpp:127-166); `meets` is whether the inductance does. -/
def primaries (meets : Comb → Bool) (cs : List Comb) : Found :=
  (cs.filter (fun c => decide (c.side = .primary))).foldl
    (fun f c => if meets c then ⟨(c.indexes, c) :: f.records, f.virtuals ++ [[c]]⟩ else f) ⟨[], []⟩

/-- One combination for one virtual magnetic (src/advisers/MagneticCombinator.cpp:173-214). `accepts` is the check of the turns ratio, from
the turns of the first winding and of the combination. -/
def extendOne (accepts : ℕ → ℕ → Bool) (v : Virtual) (f : Found) (c : Comb) : Found :=
  if repeated (used v) c.indexes then f
  else if accepts ((v.head?.map Comb.turns).getD 0) c.turns then
    if f.virtuals.any (fun t => used t == used (v ++ [c])) then f
    else ⟨(c.indexes, c) :: f.records, f.virtuals ++ [v ++ [c]]⟩
  else f

/-- One turns ratio (src/advisers/MagneticCombinator.cpp:168-218). -/
def extend (cs : List Comb) (f : Found) (accepts : ℕ → ℕ → Bool) : Found :=
  f.virtuals.foldl (fun g v => cs.foldl (extendOne accepts v) g) ⟨f.records, []⟩

/-- Models `calculate_virtual_magnetics` (src/advisers/MagneticCombinator.cpp:118-232). -/
def virtuals (meets : Comb → Bool) (ratios : List (ℕ → ℕ → Bool)) (ws : List Winding) : Found :=
  ratios.foldl (extend (combinations ws (ratios.length + 1))) (primaries meets (combinations ws (ratios.length + 1)))

/-- `usedCombinations[name]`: the latest. -/
def recorded (f : Found) (name : List ℕ) : Option Comb := (f.records.find? (fun r => r.1 == name)).map Prod.snd

/-- How a call ends. -/
inductive Outcome where
  | ok (f : Found) (references : List String)
  /-- `std::bad_optional_access` -/
  | threw
  /-- the manufacturer information is read although there is none -/
  | undefined
  deriving DecidableEq

/-- The references given to the virtual magnetics (src/advisers/MagneticCombinator.cpp:220-229); `info` is the manufacturer information of the
magnetic, if any, and `some` of its reference, if any. -/
def labelled (info : Option (Option String)) (f : Found) : Outcome :=
  match f.virtuals, info with
  | [], _ => .ok f []
  | _ :: _, none => .undefined
  | _ :: _, some none => .threw
  | vs, some (some reference) => .ok f (vs.zipIdx.map (fun v => reference ++ " virtual magnetic " ++ toString v.2))

/-- Voltage and current of a winding at an instant. The code multiplies whole waveforms
(src/processors/Inputs.cpp:1052-1068 and 1070-1085). -/
structure Excitation (K : Type) where
  voltage : K
  current : K
  deriving DecidableEq

/-- What a physical winding is given. -/
inductive Given (K : Type) where
  | excited (e : Excitation K)
  /-- the made up excitation of a winding that is not used (src/advisers/MagneticCombinator.cpp:268-286) -/
  | madeUp
  deriving DecidableEq

section

variable {K : Type} [Field K]

/-- The excitation of one of the windings of a combination (src/advisers/MagneticCombinator.cpp:253-262). -/
def share (c : Comb) (turns : ℕ) (e : Excitation K) : Excitation K :=
  if c.isParallel then { e with voltage := e.voltage * ((turns : K) / (c.turns : K)) }
  else { e with current := e.current * ((turns : K) / (c.turns : K)) }

/-- The windings of the coil one after another (src/advisers/MagneticCombinator.cpp:244-289), each with the first virtual winding that has it.
`none` is undefined behaviour: the made up excitation takes the frequency of the first excitation given so far (272), which is not there
for the first winding. -/
def spread (parts : List (Comb × Excitation K)) : List (Winding × ℕ) → List (Given K) → Option (List (Given K))
  | [], given => some given
  | (w, i) :: ws, given =>
    match parts.find? (fun p => p.1.indexes.contains i) with
    | some p => spread parts ws (given ++ [.excited (share p.1 w.turns p.2)])
    | none => if given.isEmpty then none else spread parts ws (given ++ [.madeUp])

/-- Models an operating point of `devirtualize_mas` (src/advisers/MagneticCombinator.cpp:240-291), for the combinations recorded under the
names of the virtual windings, with their excitations. -/
def devirtualize (ws : List Winding) (parts : List (Comb × Excitation K)) : Option (List (Given K)) := spread parts ws.zipIdx []

end

end Verif.Combinator
