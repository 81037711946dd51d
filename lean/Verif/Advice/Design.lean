import Verif.Advice.Catalogue

/-!
# Model of the design of magnetics (src/advisers/MagneticAdviser.cpp:18-31, 52-161, 706-916, 1192-1234)

What the core adviser, the coil adviser, the simulator and the filters give is part of the inputs and ranges over everything they could
give. Exceptions of the core adviser, the coil adviser, `delimit_and_compact` and `calculate_saturation_current` end the call and are not
modelled here (see `Verif/Advice/Restore.lean` for what a call that throws leaves behind). Numbers are those of an ordered field.
-/

namespace Verif.Advice.Design

open Verif Verif.Scoring Verif.Advice

variable {M N K : Type} [DecidableEq N] [Field K] [LinearOrder K]

/-- A wound candidate: what the validation finds when it looks at it. -/
structure Cand (M K : Type) where
  /-- the design, as the simulator gives it back -/
  design : M
  /-- number of sections and margin of the first; `none` without sections -/
  sections : Option (ℕ × K)
  /-- the coil has turns -/
  turns : Bool
  /-- the simulator does not throw -/
  simulates : Bool
  /-- `is_inductor` -/
  inductor : Bool
  /-- for each operating point the peak of the current of the first winding, if it is known, and the saturation current -/
  points : List (Option K × K)
  /-- not `coil_failed_validity_filters` (src/advisers/CoilAdviser.h:26-32) -/
  valid : Bool
  /-- number of stacked cores -/
  stacked : Option ℕ
  deriving DecidableEq

/-- `WoundCandidateOutcome` (src/advisers/MagneticAdviser.cpp:53-58). -/
inductive Verdict where
  | skipped
  | added
  | perCore
  | global
  deriving DecidableEq

/-- `usedNumberSectionsAndMargin`, `masData` and `processedCoils` (src/advisers/MagneticAdviser.cpp:74-76). -/
structure Pool (M K : Type) where
  used : List (ℕ × K)
  data : List (Cand M K)
  processed : ℕ
  deriving DecidableEq

/-- The final saturation gate (src/advisers/MagneticAdviser.cpp:123-150). -/
def saturates (margin : K) (c : Cand M K) : Bool :=
  c.inductor && c.points.any (fun p => match p.1 with | none => false | some peak => decide (p.2 < margin * peak))

/-- Models `process_wound_candidate` (src/advisers/MagneticAdviser.cpp:67-161). -/
def process (margin : K) (perCore global : ℕ) (p : Pool M K) (c : Cand M K) : Verdict × Pool M K :=
  match c.sections with
  | none => (.skipped, p)
  | some key =>
    if c.turns = false ∨ key ∈ p.used ∨ c.simulates = false then (.skipped, p)
    else if saturates margin c then (.skipped, { p with processed := p.processed + 1 })
    else if global ≤ p.data.length + 1 then (.global, { p with data := p.data ++ [c], processed := p.processed + 1 })
    else if perCore ≤ p.processed + 1 then
      (.perCore, ⟨p.used ++ [key], p.data ++ [c], p.processed + 1⟩)
    else (.added, { p with data := p.data ++ [c], processed := p.processed + 1 })

/-- Models the loop over the coils of a core (src/advisers/MagneticAdviser.cpp:776-788 and 877-889); the Boolean is whether the global cap
was reached. -/
def coils (margin : K) (perCore global : ℕ) : List (Cand M K) → Pool M K → Pool M K × Bool
  | [], p => (p, false)
  | c :: cs, p =>
    match process margin perCore global p c with
    | (.global, p') => (p', true)
    | (.perCore, p') => (p', false)
    | (_, p') => coils margin perCore global cs p'

/-- A core of the core adviser, with the coils that the coil adviser gives for it. -/
structure Core (M N K : Type) where
  name : Option N
  coils : List (Cand M K)

/-- `evaluatedCores`, `coresWound`, `masData` and `globalCapReached` (src/advisers/MagneticAdviser.cpp:708-731). -/
structure State (M N K : Type) where
  evaluated : List N
  wound : ℕ
  data : List (Cand M K)
  capped : Bool

/-- `maxEvaluatedCores` (src/advisers/MagneticAdviser.cpp:717). -/
def maxEvaluated : ℕ := 40

/-- `perCoreCoilCap` (src/advisers/MagneticAdviser.cpp:729): the smaller of 5 and the half of the results, rounded up. -/
def perCoreCap (results : ℕ) : ℕ := min 5 ((results + 1) / 2)

/-- `globalCandidateCap` (src/advisers/MagneticAdviser.cpp:730). -/
def globalCap (results : ℕ) : ℕ := max 1 results * 4

/-- `expectedWoundCores` (src/advisers/MagneticAdviser.cpp:711); there is at least one winding (707). -/
def expectedCores (results windings : ℕ) : ℕ := min results (max 2 (results / windings))

/-- The winding of one core (src/advisers/MagneticAdviser.cpp:768-788 and 865-889). -/
def wind (margin : K) (results : ℕ) (core : Core M N K) (s : State M N K) : State M N K :=
  { s with
    wound := if core.coils.isEmpty then s.wound else s.wound + 1
    data := (coils margin (perCoreCap results) (globalCap results) core.coils ⟨[], s.data, 0⟩).1.data
    capped := s.capped || (coils margin (perCoreCap results) (globalCap results) core.coils ⟨[], s.data, 0⟩).2 }

/-- Models the loops over the advised cores: the first (src/advisers/MagneticAdviser.cpp:746-795), with `stop`, and that of the retry (844-890),
which has no break but the one of the evaluated cores. -/
def loop (margin : K) (results expected : ℕ) (stop : Bool) : List (Core M N K) → State M N K → State M N K
  | [], s => s
  | c :: cs, s =>
    match c.name with
    | none => loop margin results expected stop cs s
    | some n =>
      if n ∈ s.evaluated then loop margin results expected stop cs s
      else if maxEvaluated ≤ s.evaluated.length + 1 then { s with evaluated := s.evaluated ++ [n] }
      else
        if stop = true ∧
            ((wind margin results c { s with evaluated := s.evaluated ++ [n] }).capped = true ∨
              expected ≤ (wind margin results c { s with evaluated := s.evaluated ++ [n] }).wound) then
          wind margin results c { s with evaluated := s.evaluated ++ [n] }
        else loop margin results expected stop cs (wind margin results c { s with evaluated := s.evaluated ++ [n] })

/-- Models the `while` (src/advisers/MagneticAdviser.cpp:732-796 and 834-897) for the iterations that are left; `advised` is what the core
adviser gives in each. The breaks behind the loop over the cores of the retry (891-896) are those of the condition. -/
def rounds (margin : K) (results expected : ℕ) (stop : Bool) : List (List (Core M N K)) → Option ℕ → State M N K → State M N K
  | [], _, s => s
  | advised :: rest, previous, s =>
    if expected ≤ s.wound ∨ maxEvaluated ≤ s.evaluated.length ∨ s.capped = true then s
    else if previous = some advised.length then s
    else rounds margin results expected stop rest (some advised.length) (loop margin results expected stop advised s)

/-- The pool of one search (src/advisers/MagneticAdviser.cpp:708-796 and 825-897): at most two rounds (716). -/
def search (margin : K) (results windings : ℕ) (stop : Bool) (advised : List (Core M N K) × List (Core M N K)) : State M N K :=
  rounds margin results (expectedCores results windings) stop [advised.1, advised.2] none ⟨[], 0, [], false⟩

/-! ## Scores -/

/-- What a scoring or a call ends in. -/
inductive Answer (M K : Type) where
  | designs (l : List (Cand M K × K))
  | threw
  /-- some score is not a finite number: `std::sort` is then given no order, which is not modelled -/
  | notFinite
  deriving DecidableEq

/-- The raw scores of one filter (src/advisers/MagneticAdviser.cpp:1212-1217): `none` when the filter throws on one of the designs. Whether
it accepts them is not read. -/
def raw (evaluate : ℕ → Cand M K → Eval K) (kind : ℕ) : List (Cand M K) → Option (List (Num K))
  | [] => some []
  | c :: cs =>
    match evaluate kind c, raw evaluate kind cs with
    | .answer _ score, some r => some (score :: r)
    | _, _ => none

/-- All of them, when all are there. -/
def allSome : List (Option K) → Option (List K)
  | [] => some []
  | none :: _ => none
  | some x :: l => (allSome l).map (x :: ·)

/-- Adds the normalised scores (src/support/Utils.cpp:3127-3133). -/
def plus (totals : List (Cand M K × K)) (scores : List K) : List (Cand M K × K) :=
  (totals.zip scores).map (fun p => (p.1.1, p.1.2 + p.2))

/-- The loop over the filters (src/advisers/MagneticAdviser.cpp:1203-1221). -/
def scores (lg : K → K) (evaluate : ℕ → Cand M K → Eval K) (data : List (Cand M K)) : List (Op K) → List (Cand M K × K) → Answer M K
  | [], totals => .designs totals
  | op :: ops, totals =>
    match raw evaluate op.kind data with
    | none => .threw
    | some r =>
      match normalizeList lg op.weight op.invert op.log r with
      | none => .threw
      | some l =>
        match allSome l with
        | none => .notFinite
        | some l => scores lg evaluate data ops (plus totals l)

/-- `1.0 - (stacks - 1) * 0.15` (src/advisers/MagneticAdviser.cpp:1226-1230). -/
def stackFactor (stacked : Option ℕ) : K :=
  match stacked with
  | none => 1
  | some n => if 1 < n then 1 - ((n : K) - 1) * (15 / 100) else 1

/-- Models `score_magnetics` (src/advisers/MagneticAdviser.cpp:1192-1234). -/
def scoreMagnetics (lg : K → K) (evaluate : ℕ → Cand M K → Eval K) (flow : List (Op K)) (data : List (Cand M K)) : Answer M K :=
  if data.isEmpty then .designs []
  else match scores lg evaluate data flow (data.map (fun c => (c, 0))) with
    | .designs l => .designs (l.map (fun e => (e.1, e.2 * stackFactor e.1.stacked)))
    | other => other

/-- Models `drop_invalid_when_valid_exists` (src/advisers/MagneticAdviser.cpp:24-31). -/
def dropInvalid (l : List (Cand M K × K)) : List (Cand M K × K) :=
  if l.any (fun e => e.1.valid) then l.filter (fun e => e.1.valid) else l

/-- The scores of a pool, the best of which are kept (src/advisers/MagneticAdviser.cpp:800-817 and 900-909). `sort` is `std::sort`, by
descending score. -/
def best (lg : K → K) (evaluate : ℕ → Cand M K → Eval K) (sort : List (Cand M K × K) → List (Cand M K × K)) (flow : List (Op K))
    (results : ℕ) (data : List (Cand M K)) : Answer M K :=
  match scoreMagnetics lg evaluate flow data with
  | .designs l => .designs (cut results (sort (dropInvalid l)))
  | other => other

/-- Whether the retry is due: toroids were enabled, and not switched off for high voltage (src/advisers/MagneticAdviser.cpp:820). -/
def designed (lg : K → K) (margin : K) (evaluate : ℕ → Cand M K → Eval K) (sort : List (Cand M K × K) → List (Cand M K × K))
    (flow : List (Op K)) (results windings : ℕ) (retry : Bool) (first second : List (Core M N K) × List (Core M N K)) : Answer M K :=
  match best lg evaluate sort flow results (search margin results windings true first).data with
  | .designs [] =>
    if retry then best lg evaluate sort flow results (search margin results windings false second).data else .designs []
  | other => other

end Verif.Advice.Design
