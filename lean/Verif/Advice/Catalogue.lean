import Verif.Scoring.Model
import Verif.Common.SMap
import Mathlib.Algebra.Order.Field.Basic

/-!
# Model of the advice out of a catalogue (src/advisers/MagneticAdviser.cpp:919-1190, 1340-1384)

What the filters, the simulator and `std::sort` do is given by an environment and ranges over everything they could do: a filter answers
the same for the same part (what the filters remember between calls is modelled in `Verif/Filters/Memo.lean`), may fill in the part it
looks at, and may throw. Parts are opaque; only their references are read, which are of any ordered type. Numbers are those of an ordered field.
-/

namespace Verif.Advice

open Verif Verif.Scoring

/-- What one filter does with one part: an answer, or an exception with a message. -/
inductive Eval (K : Type) where
  | answer (valid : Bool) (score : Num K)
  | threw (message : String)
  deriving DecidableEq

/-- Models `MagneticFilterOperation` (src/Definitions.h:536-566). The kind is the position of the enumerator in
`MagneticFilters` (src/Definitions.h:495-534). -/
structure Op (K : Type) where
  kind : ℕ
  invert : Bool
  log : Bool
  strict : Bool
  weight : K
  deriving DecidableEq

/-- What surrounds the advice. -/
structure Env (M R K : Type) where
  /-- `_filters[kind]->evaluate_magnetic` on a part: the part afterwards and what came of it -/
  evaluate : ℕ → M → M × Eval K
  /-- `get_reference()` -/
  reference : M → R
  /-- `magneticSimulator.simulate`; `none` when it throws -/
  simulate : M → Option M
  /-- `std::sort` by descending score -/
  sort : List (M × K) → List (M × K)
  /-- `std::log10` of a positive number -/
  lg : K → K

variable {M R K : Type} [LinearOrder R] [Field K] [LinearOrder K]

/-- `_scorings`: for each filter the raw score recorded under each reference (src/support/Utils.h:61). -/
abbrev Scores (R K : Type) := SMap ℕ (SMap R (Num K))

/-- Models `add_scoring` (src/support/Utils.cpp:178-194): NaN and exactly -1 are not recorded. -/
def record (sc : Scores R K) (kind : ℕ) (name : R) (score : Num K) : Scores R K :=
  if score = .nan ∨ score = .fin (-1) then sc
  else sc.insert kind (((sc.find? kind).getD []).insert name score)

/-- `previousThrowMessage` and `identicalThrowStreak` (src/advisers/MagneticAdviser.cpp:1002-1003). -/
structure Streak where
  message : String
  length : ℕ
  deriving DecidableEq

/-- Both as they begin, and after a successful evaluation (src/advisers/MagneticAdviser.cpp:1002-1003, 1023-1024). -/
def Streak.zero : Streak := ⟨"", 0⟩

/-- A throw (src/advisers/MagneticAdviser.cpp:1028-1034). -/
def Streak.bump (st : Streak) (message : String) : Streak :=
  if message = st.message then ⟨st.message, st.length + 1⟩ else ⟨message, 1⟩

/-- Models the loop over the strictly required filters for one part (src/advisers/MagneticAdviser.cpp:1010-1038). The last component is
the part when it stays valid. -/
def gates (env : Env M R K) (strict : Bool) : List (Op K) → M → Streak → Scores R K → Streak × Scores R K × Option M
  | [], m, st, sc => (st, sc, some m)
  | op :: ops, m, st, sc =>
    match env.evaluate op.kind m with
    | (m', .answer valid score) =>
      if strict = true ∧ valid = false then (st, record sc op.kind (env.reference m') score, none)
      else gates env strict ops m' .zero (record sc op.kind (env.reference m') score)
    | (_, .threw message) => (st.bump message, sc, none)

/-- `kIdenticalThrowBailThreshold` (src/advisers/MagneticAdviser.cpp:1001). -/
def bailThreshold : ℕ := 8

/-- What the first loop ends in. -/
inductive Gated (M R K : Type) where
  | passed (parts : List M) (scores : Scores R K)
  | aborted (count : ℕ) (message : String)
  deriving DecidableEq

/-- Models the first loop over the catalogue (src/advisers/MagneticAdviser.cpp:1004-1060). -/
def gateLoop (env : Env M R K) (strict : Bool) (ops : List (Op K)) : List M → Streak → Scores R K → List M → Gated M R K
  | [], _, sc, acc => .passed acc sc
  | m :: ms, st, sc, acc =>
    if bailThreshold ≤ (gates env strict ops m st sc).1.length then
      .aborted (gates env strict ops m st sc).1.length (gates env strict ops m st sc).1.message
    else gateLoop env strict ops ms (gates env strict ops m st sc).1 (gates env strict ops m st sc).2.1
      (acc ++ (gates env strict ops m st sc).2.2.toList)

/-- Models the loop over the other filters for one part (src/advisers/MagneticAdviser.cpp:1076-1105). `_failedScorings` is the list of
the rejections. -/
def ranks (env : Env M R K) : List (Op K) → M → Scores R K → List (ℕ × R) → Scores R K × List (ℕ × R) × Option M
  | [], m, sc, failed => (sc, failed, some m)
  | op :: ops, m, sc, failed =>
    match env.evaluate op.kind m with
    | (m', .answer valid score) =>
      ranks env ops m' (record sc op.kind (env.reference m') score)
        (if valid then failed else failed ++ [(op.kind, env.reference m')])
    | (_, .threw _) => (sc, failed, none)

/-- Models the second loop (src/advisers/MagneticAdviser.cpp:1062-1114). -/
def rankLoop (env : Env M R K) (ops : List (Op K)) :
    List M → Scores R K → List (ℕ × R) → List M → Scores R K × List (ℕ × R) × List M
  | [], sc, failed, acc => (sc, failed, acc)
  | m :: ms, sc, failed, acc =>
    rankLoop env ops ms (ranks env ops m sc failed).1 (ranks env ops m sc failed).2.1 (acc ++ (ranks env ops m sc failed).2.2.toList)

/-- The operation `get_scorings` normalises with: the first of the loaded flow, otherwise a default one
(src/advisers/MagneticAdviser.cpp:1344-1350, src/Definitions.h:544-548). -/
def opOf (flow : List (Op K)) (kind : ℕ) : Op K :=
  ((flow.find? (fun op => op.kind == kind)).getD ⟨8, true, false, false, 1⟩)

/-- Models the normalised score of one reference for one filter (src/advisers/MagneticAdviser.cpp:1342-1381): over the accepted ones,
zero for the rejected ones. `none`: not a finite number (an infinite raw score, the logarithm of a negative one). -/
def normalised (lg : K → K) (flow : List (Op K)) (failed : List (ℕ × R)) (kind : ℕ) (aux : SMap R (Num K)) (name : R) :
    Option K :=
  if (kind, name) ∈ failed then some 0
  else match normalizeMap lg (opOf flow kind).weight (opOf flow kind).invert (opOf flow kind).log
      (aux.filter (fun e => !decide ((kind, e.1) ∈ failed))) with
    | none => none
    | some m => (m.find? name).getD (some 0)

/-- `filterWeights[filter]`: the last of the flow (src/advisers/MagneticAdviser.cpp:1119-1124), 1 for an unknown filter (1135). -/
def weightOf (flow : List (Op K)) (kind : ℕ) : K :=
  ((flow.reverse.find? (fun op => op.kind == kind)).map Op.weight).getD 1

/-- The sums `totalScoring` and `usedWeight` over the filters that scored a reference
(src/advisers/MagneticAdviser.cpp:1132-1138). -/
def sums (lg : K → K) (flow : List (Op K)) (failed : List (ℕ × R)) (name : R) : Scores R K → Option (K × K)
  | [] => some (0, 0)
  | (kind, aux) :: rest =>
    match sums lg flow failed name rest with
    | none => none
    | some (s, w) =>
      match aux.find? name with
      | none => some (s, w)
      | some _ =>
        match normalised lg flow failed kind aux name with
        | none => none
        | some x => some (x * weightOf flow kind + s, weightOf flow kind + w)

/-- Models the score of one reference (src/advisers/MagneticAdviser.cpp:1131-1142). -/
def total (lg : K → K) (flow : List (Op K)) (failed : List (ℕ × R)) (sc : Scores R K) (name : R) : Option K :=
  match sums lg flow failed name sc with
  | none => none
  | some (s, w) => some (if 0 < w then s / w else s)

/-- What the advice ends in. -/
inductive Outcome (M K : Type) where
  | advised (parts : List (M × K))
  /-- `InvalidInputException` after so many identical errors (src/advisers/MagneticAdviser.cpp:1039-1051) -/
  | aborted (count : ℕ) (message : String)
  /-- some score is not a finite number: `std::sort` is then given no order, which is not modelled -/
  | notFinite
  deriving DecidableEq

/-- The parts with their scores (src/advisers/MagneticAdviser.cpp:1130-1144). -/
def scored (env : Env M R K) (flow : List (Op K)) (failed : List (ℕ × R)) (sc : Scores R K) : List M → Option (List (M × K))
  | [] => some []
  | m :: ms =>
    match total env.lg flow failed sc (env.reference m), scored env flow failed sc ms with
    | some t, some r => some ((m, t) :: r)
    | _, _ => none

/-- `if (size > n) keep the first n` (src/advisers/MagneticAdviser.cpp:1149-1151). -/
def cut {α : Type} (n : ℕ) (l : List α) : List α := if n < l.length then l.take n else l

/-- The simulation of what is returned (src/advisers/MagneticAdviser.cpp:1153-1169): a part whose simulation throws is left out. -/
def simulated (env : Env M R K) (simulate : Bool) (l : List (M × K)) : List (M × K) :=
  if simulate then l.filterMap (fun x => (env.simulate x.1).map (fun m => (m, x.2))) else l

/-- The advice out of the parts that are left (src/advisers/MagneticAdviser.cpp:1116-1171). -/
def present (env : Env M R K) (flow : List (Op K)) (n : ℕ) (simulate : Bool) (failed : List (ℕ × R)) (sc : Scores R K) (valid : List M) :
    Outcome M K :=
  match scored env flow failed sc valid with
  | none => .notFinite
  | some l => .advised (simulated env simulate (cut n (env.sort l)))

/-- The call with the gates relaxed (src/advisers/MagneticAdviser.cpp:954-1190 with `strict` false): it never calls itself. -/
def relaxed (env : Env M R K) (flow : List (Op K)) (n : ℕ) (simulate : Bool) (parts : List M) : Outcome M K :=
  if parts.isEmpty then .advised []
  else match gateLoop env false (flow.filter Op.strict) parts .zero [] [] with
    | .aborted c msg => .aborted c msg
    | .passed ps sc =>
      if (rankLoop env (flow.filter (fun op => !op.strict)) ps sc [] []).2.2.isEmpty then .advised []
      else present env flow n simulate (rankLoop env (flow.filter (fun op => !op.strict)) ps sc [] []).2.1
        (rankLoop env (flow.filter (fun op => !op.strict)) ps sc [] []).1
        (rankLoop env (flow.filter (fun op => !op.strict)) ps sc [] []).2.2

/-- Models `get_advised_magnetic` on parts with their inputs (src/advisers/MagneticAdviser.cpp:954-1190). -/
def advise (env : Env M R K) (flow : List (Op K)) (n : ℕ) (simulate strict : Bool) (parts : List M) : Outcome M K :=
  if strict then
    if parts.isEmpty then .advised []
    else match gateLoop env true (flow.filter Op.strict) parts .zero [] [] with
      | .aborted c msg => .aborted c msg
      | .passed ps sc =>
        if (rankLoop env (flow.filter (fun op => !op.strict)) ps sc [] []).2.2.isEmpty then
          if ps.isEmpty then .advised [] else relaxed env flow n simulate ps
        else present env flow n simulate (rankLoop env (flow.filter (fun op => !op.strict)) ps sc [] []).2.1
          (rankLoop env (flow.filter (fun op => !op.strict)) ps sc [] []).1
          (rankLoop env (flow.filter (fun op => !op.strict)) ps sc [] []).2.2
  else relaxed env flow n simulate parts

/-- Models the overloads on a catalogue of magnetics (src/advisers/MagneticAdviser.cpp:923-936, 938-952): a magnetic whose number of
windings differs from the excitations of the first operating point is left out; without operating points none is. -/
def ofCatalogue {G : Type} (windings : G → ℕ) (excitations : Option ℕ) (withInputs : G → M) (catalogue : List G) : List M :=
  (catalogue.filter (fun g => decide (excitations = none ∨ excitations = some (windings g)))).map withInputs

/-- `_defaultCatalogueMagneticFilterFlow` (src/advisers/MagneticAdviser.h:163-172). The constructor with four arguments leaves
`strictlyRequired` false (src/Definitions.h:538, 547). -/
def defaultFlow : List (Op K) :=
  [⟨37, true, false, false, 1⟩, ⟨15, true, false, true, 1⟩, ⟨16, true, false, false, 1⟩, ⟨17, true, false, false, 1⟩,
   ⟨18, true, false, false, 1⟩, ⟨19, true, false, false, 1⟩, ⟨20, true, false, false, 1⟩, ⟨21, true, false, false, 1⟩]

end Verif.Advice
