import Verif.Scoring.Model

/-! # Model of the core adviser's filtering and ranking machinery

`src/advisers/CoreAdviserFilters.cpp`, `src/advisers/CoreAdviserPipeline.cpp`, `src/advisers/CoreAdviser.cpp`,
`src/advisers/CoreAdviserGapping.cpp`, `src/advisers/CoreAdviserMaterials.cpp`.

A candidate is a pair of a magnetic (abstract type `M`) and its running total (`K`, exact numbers). What one
evaluation of one magnetic computes is a parameter; the machinery around it (culling, scoring, sorting, pruning,
retrying, cutting, batching) is modelled as written. -/

namespace Verif.Adviser

open Verif.Scoring (Num)

variable {S M R K σ : Type}

/-- The ways a step can fail. -/
inductive Err where
  /-- an exception that is not a library exception, thrown by an evaluation -/
  | foreign
  /-- the `CalculationException` of src/advisers/CoreAdviserFilters.cpp:95-99 -/
  | sizes
  /-- a NaN score, refused by the normalisation -/
  | nan
  /-- a total that is not a finite number (the code goes on with it) -/
  | notFinite
  deriving DecidableEq, Repr

/-- What `evaluate_magnetic` does on one candidate. -/
inductive Eval (K : Type) where
  | verdict (valid : Bool) (score : Num K)
  /-- throws an `OpenMagneticsException` -/
  | libraryException
  /-- throws anything else -/
  | otherException
  deriving DecidableEq, Repr

/-- One evaluation: from the state (the filter object and the inputs, which are passed by pointer) and a copy of
the magnetic, the new state, the possibly modified copy and the outcome. -/
abbrev Evaluator (S M K : Type) := S → M → S × M × Eval K

/-! ## Evaluate and cull -/

/-- The first loop of `evaluate_and_cull` (src/advisers/CoreAdviserFilters.cpp:59-84) from index `i`: the state
reached, the vector with the valid magnetics written back when `wb`, the scores of the valid ones and the indexes
to erase. `none`: an exception that is not caught. -/
def evalLoop (ev : Evaluator S M K) (wb : Bool) :
    Nat → S → List (M × K) → Option (S × List (M × K) × List (Num K) × List Nat)
  | _, s, [] => some (s, [], [], [])
  | i, s, (m, t) :: rest =>
    match ev s m with
    | (s', m', .verdict true sc) =>
      (evalLoop ev wb (i + 1) s' rest).map
        (fun r => (r.1, ((if wb then m' else m), t) :: r.2.1, sc :: r.2.2.1, r.2.2.2))
    | (s', _, .verdict false _) =>
      (evalLoop ev wb (i + 1) s' rest).map (fun r => (r.1, (m, t) :: r.2.1, r.2.2.1, i :: r.2.2.2))
    | (s', _, .libraryException) =>
      (evalLoop ev wb (i + 1) s' rest).map (fun r => (r.1, (m, t) :: r.2.1, r.2.2.1, i :: r.2.2.2))
    | (_, _, .otherException) => none

/-- The second loop (src/advisers/CoreAdviserFilters.cpp:86-93): copy everything but the indexes at the front of
the erase list. -/
def dropErased {α : Type} : Nat → List Nat → List α → List α
  | _, _, [] => []
  | i, [], x :: l => x :: dropErased (i + 1) [] l
  | i, e :: er, x :: l => if i = e then dropErased (i + 1) er l else x :: dropErased (i + 1) (e :: er) l

/-- Models `evaluate_and_cull` (src/advisers/CoreAdviserFilters.cpp:50-101). Logging is left out. -/
def evaluateAndCull (ev : Evaluator S M K) (wb : Bool) (s : S) (l : List (M × K)) :
    Except Err (S × List (M × K) × List (Num K)) :=
  match evalLoop ev wb 0 s l with
  | none => .error .foreign
  | some (s', items, scores, erase) =>
    let filtered := dropErased 0 erase items
    if filtered.length ≠ scores.length then .error .sizes
    else .ok (s', filtered, scores)

/-! ## Scoring after a cull -/

variable [Field K] [LinearOrder K]

/-- All entries finite, or failure. -/
def allFinite : List (Option K) → Option (List K)
  | [] => some []
  | none :: _ => none
  | some x :: l => (allFinite l).map (x :: ·)

/-- Models `apply_normalized_scoring` (src/advisers/CoreAdviserFilters.cpp:107-120) with the `normalize_scoring` of
src/advisers/CoreAdviser.cpp:110-123 and the sort of 125-129. The record of the normalised score under the
magnetic's reference (`add_scoring`) is left out. -/
def applyScoring (lg : K → K) (invert log : Bool) (weight : K) (items : List (M × K)) (scores : List (Num K)) :
    Except Err (List (M × K)) :=
  match items with
  | [] => .ok []
  | _ :: _ =>
    match Scoring.normalizeList lg weight invert log scores with
    | none => .error .nan
    | some ns =>
      match allFinite ns with
      | none => .error .notFinite
      | some xs =>
        match Scoring.addScores items xs with
        | none => .error .sizes
        | some out => .ok (Scoring.sortDesc out)

/-- The filters whose cull runs whatever the weight: area product, energy stored, fringing factor, cost,
dimensions, magnetic inductance, saturation (src/advisers/CoreAdviserFilters.cpp:126-188, 234-247, 324-360).
`scoring = false` is the saturation filter on its first pass. -/
def gateFilter (lg : K → K) (invert log : Bool) (ev : Evaluator S M K) (wb scoring : Bool) (weight : K) (s : S)
    (l : List (M × K)) : Except Err (List (M × K)) :=
  match evaluateAndCull ev wb s l with
  | .error e => .error e
  | .ok (_, items, scores) =>
    if scoring = true ∧ 0 < weight then applyScoring lg invert log weight items scores else .ok items

/-- The filters that are skipped altogether at weight zero: losses, minimum impedance, temperature
(src/advisers/CoreAdviserFilters.cpp:190-232, 299-322, 362-383). `passThrough` is the case of the losses filter in
which single-winding candidates meet multi-winding inputs (214-223). -/
def optionalFilter (lg : K → K) (invert log : Bool) (ev : Evaluator S M K) (passThrough : Bool) (weight : K) (s : S)
    (l : List (M × K)) : Except Err (List (M × K)) :=
  if weight ≤ 0 then .ok l
  else if passThrough then .ok l
  else
    match evaluateAndCull ev true s l with
    | .error e => .error e
    | .ok (_, items, scores) => applyScoring lg invert log weight items scores

/-- The contribution of the turn-count filter (src/advisers/CoreAdviserFilters.cpp:279-291). -/
def turnContribution (weight mn mx v : K) : K :=
  if mn < mx then weight * (1 - (v - mn) / (mx - mn)) else weight * (1 / 2)

/-- Pair the survivors with their contributions (src/advisers/CoreAdviserFilters.cpp:281-291). -/
def addTurns (weight mn mx : K) : List (M × K) → List (Num K) → Option (List (M × K))
  | [], _ => some []
  | _ :: _, [] => none
  | (m, t) :: l, .fin v :: vs => (addTurns weight mn mx l vs).map ((m, t + turnContribution weight mn mx v) :: ·)
  | _ :: _, _ :: _ => none

/-- Models `MagneticCoreFilterTurnCount::filter_magnetics` (src/advisers/CoreAdviserFilters.cpp:258-297). -/
def turnCountFilter (ev : Evaluator S M K) (weight : K) (s : S) (l : List (M × K)) : Except Err (List (M × K)) :=
  if weight ≤ 0 then .ok l
  else
    match evaluateAndCull ev false s l with
    | .error e => .error e
    | .ok (_, items, scores) =>
      match items, scores with
      | [], _ => .ok []
      | _ :: _, [] => .error .sizes
      | it :: its, x :: xs =>
        match Scoring.minElement x xs, Scoring.maxElement x xs with
        | .fin mn, .fin mx =>
          match addTurns weight mn mx (it :: its) (x :: xs) with
          | some out => .ok (Scoring.sortDesc out)
          | none => .error .notFinite
        | _, _ => .error .notFinite

/-! ## Post-processing, cutting, batching -/

/-- The loop of `post_process_and_cut` (src/advisers/CoreAdviserPipeline.cpp:315-364). `prep` is
`correct_windings` plus `add_alternative_materials` (its exceptions are not caught: `none`), `post` is
`post_process_core` (any `std::exception` drops the candidate: `none`). -/
def postLoop [DecidableEq σ] (unique : Bool) (shape : M → σ) (prep : M → Option M) (post : M → Option R) (n : Nat) :
    List (M × K) → List (R × K) → List σ → Option (List (R × K))
  | [], acc, _ => some acc
  | (m, t) :: l, acc, used =>
    if n ≤ acc.length then some acc
    else if unique = true ∧ shape m ∈ used then postLoop unique shape prep post n l acc used
    else
      match prep m with
      | none => none
      | some m' =>
        match post m' with
        | some r =>
          postLoop unique shape prep post n l (acc ++ [(r, t)]) (if unique then used ++ [shape m] else used)
        | none => postLoop unique shape prep post n l acc used

/-- Models `post_process_and_cut` (src/advisers/CoreAdviserPipeline.cpp:315-364). -/
def postProcessAndCut [DecidableEq σ] (unique : Bool) (shape : M → σ) (prep : M → Option M) (post : M → Option R)
    (n : Nat) (l : List (M × K)) : Option (List (R × K)) :=
  postLoop unique shape prep post n l [] []

/-- The loop of the batched `get_advised_core` (src/advisers/CoreAdviser.cpp:326-344) from index `i`, with at most
`fuel` rounds; `none`: not finished within them. `adviser` is the per-batch adviser with the state of the object;
the batch is a copy of the catalogue's slice, the catalogue is not touched. -/
def batchLoop {C : Type} (adviser : S → List C → S × List (R × K)) (cores : List C) (step : Nat) :
    Nat → Nat → S → Option (List (R × K))
  | 0, i, _ => if i < cores.length then none else some []
  | fuel + 1, i, s =>
    if i < cores.length then
      let last := min cores.length (i + step)
      let r := adviser s ((cores.drop i).take (last - i))
      (batchLoop adviser cores step fuel (i + step) r.1).map (r.2 ++ ·)
    else some []

/-- The end of the batched `get_advised_core` (src/advisers/CoreAdviser.cpp:346-353). -/
def rankAndCut (n : Nat) (results : List (R × K)) : List (R × K) :=
  let sorted := Scoring.sortDesc results
  if n < sorted.length then sorted.take (sorted.length - (sorted.length - n)) else sorted

/-- Models the batched `get_advised_core` (src/advisers/CoreAdviser.cpp:319-354), after the check of the inputs. -/
def advisedBatched {C : Type} (adviser : S → List C → S × List (R × K)) (cores : List C) (n step fuel : Nat) (s : S) :
    Option (List (R × K)) :=
  (batchLoop adviser cores step fuel 0 s).map (rankAndCut n)

/-! ## Pipelines -/

/-- A stage of a pipeline: from candidates to candidates, or an exception. -/
abbrev Stage (M K : Type) := List (M × K) → Except Err (List (M × K))

/-- Run stages one after the other, as the pipelines do
(src/advisers/CoreAdviserPipeline.cpp:381-438, src/advisers/CrossReferencerCommon.h:305-319). -/
def runStages : List (Stage M K) → Stage M K
  | [], l => .ok l
  | st :: sts, l =>
    match st l with
    | .error e => .error e
    | .ok l' => runStages sts l'

/-- `resize(cap)` when pruning is enabled and there are more (src/advisers/CoreAdviserPipeline.cpp:384-387,
417-421). -/
def prune (enabled : Bool) (cap : Nat) : Stage M K := fun l =>
  .ok (if enabled = true ∧ cap < l.length then l.take cap else l)

/-- Models `reject_winding_killing_gaps` (src/advisers/CoreAdviserGapping.cpp:402-469): `valid limit` is the
fringing filter's verdict. -/
def rejectGaps {L : Type} (valid : L → M → Bool) (strict relaxed : L) : Stage M K := fun l =>
  match l with
  | [] => .ok []
  | _ :: _ =>
    let kept := l.filter (fun p => valid strict p.1)
    if kept = [] then .ok (l.filter (fun p => valid relaxed p.1)) else .ok kept

/-- The stages of `filter_available_cores_power_application`, given as parameters. -/
structure PowerStages (M K : Type) where
  area : Stage M K
  energy : Stage M K
  turns : Stage M K
  /-- saturation filter at a given margin -/
  saturation : K → Stage M K
  gaps : Stage M K
  cost : Stage M K
  dimensions : Stage M K
  losses : Stage M K
  /-- the identity when the temperature filter is disabled -/
  temperature : Stage M K

/-- The tag of src/advisers/CoreAdviserPipeline.cpp:496-501. -/
def tagAll (tag : M → M) (l : List (M × K)) : List (M × K) := l.map (fun p => (tag p.1, p.2))

/-- The first attempt of `filter_available_cores_power_application`
(src/advisers/CoreAdviserPipeline.cpp:381-436). -/
def firstAttempt (st : PowerStages M K) (margin : K) (pruning : Bool) (cap preLossCap : Nat) : Stage M K :=
  runStages [st.area, prune pruning cap, st.energy, st.turns, st.saturation margin, st.gaps, st.cost,
    st.dimensions, prune pruning preLossCap, st.losses, st.temperature]

/-- The retry up to the saturation filter (src/advisers/CoreAdviserPipeline.cpp:450-453, 466-470). -/
def retryHead (st : PowerStages M K) (margin : K) : Stage M K :=
  runStages [st.area, st.energy, st.turns, st.saturation margin]

/-- The rest of the retry (src/advisers/CoreAdviserPipeline.cpp:478-494). -/
def retryTail (st : PowerStages M K) : Stage M K :=
  runStages [st.gaps, st.cost, st.dimensions, st.losses, st.temperature]

/-- Models `filter_available_cores_power_application` up to post-processing
(src/advisers/CoreAdviserPipeline.cpp:381-508). -/
def availablePower (st : PowerStages M K) (margin : K) (pruning : Bool) (cap preLossCap : Nat) (tag : M → M) :
    Stage M K := fun l =>
  match firstAttempt st margin pruning cap preLossCap l with
  | .error e => .error e
  | .ok (p :: r) => .ok (p :: r)
  | .ok [] =>
    match retryHead st margin l with
    | .error e => .error e
    | .ok (p :: r) => retryTail st (p :: r)
    | .ok [] =>
      if 1 < margin then
        match retryHead st 1 l with
        | .error e => .error e
        | .ok l' =>
          match retryTail st l' with
          | .error e => .error e
          | .ok out => .ok (if l' = [] then out else tagAll tag out)
      else retryTail st []

/-- Models the losses step of the suppression pipelines (src/advisers/CoreAdviserPipeline.cpp:637-646, 970-980). -/
def lossesOrAll (losses : Stage M K) : Stage M K := fun l =>
  match losses l with
  | .error e => .error e
  | .ok out => if out = [] then .ok l else .ok out

/-- The end of `filter_standard_cores_power_application`: ferrite candidates first, then powder ones, cut in that
order (src/advisers/CoreAdviserPipeline.cpp:880-911). -/
def combineAndCut [DecidableEq σ] (unique : Bool) (shape : M → σ) (prep : M → Option M) (post : M → Option R) (n : Nat)
    (ferrite powder : List (M × K)) : Option (List (R × K)) :=
  match ferrite ++ powder with
  | [] => some []
  | l => postProcessAndCut unique shape prep post n l

/-- Models `fan_out_dummy_into_top_materials` (src/advisers/CoreAdviserMaterials.cpp:150-183); `assign` sets
material and name. -/
def fanOut {W : Type} (isDummy : M → Bool) (assign : W → M → M) (ranked : List W) (n : Nat) (l : List (M × K)) :
    List (M × K) :=
  l.flatMap (fun p =>
    if isDummy p.1 then (ranked.take (min n ranked.length)).map (fun w => (assign w p.1, p.2)) else [p])

/-! ## Golden-section search -/

/-- The loop of `optimize_gap_golden_section` (src/advisers/CoreAdviserGapping.cpp:236-252) with `fuel` rounds
left. `f` is `calculate_core_losses_for_gap` (`none`: it throws), `rho` is `RESPHI`. -/
def goldenLoop (f : K → Option K) (rho eps : K) : Nat → K → K → K → K → K → K → Option (K × K)
  | 0, a, b, _, _, _, _ => some (a, b)
  | fuel + 1, a, b, c, d, fc, fd =>
    if eps < b - a then
      if fc < fd then
        let b' := d
        let c' := a + rho * (b' - a)
        match f c' with
        | none => none
        | some fc' => goldenLoop f rho eps fuel a b' c' c fc' fc
      else
        let a' := c
        let d' := b - rho * (b - a')
        match f d' with
        | none => none
        | some fd' => goldenLoop f rho eps fuel a' b d d' fd fd'
    else some (a, b)

/-- Models `optimize_gap_golden_section` (src/advisers/CoreAdviserGapping.cpp:221-256). -/
def golden (f : K → Option K) (rho eps : K) (rounds : Nat) (mn mx : K) : Option K :=
  let c := mn + rho * (mx - mn)
  let d := mx - rho * (mx - mn)
  match f c, f d with
  | some fc, some fd => (goldenLoop f rho eps rounds mn mx c d fc fd).map (fun p => (p.1 + p.2) / 2)
  | _, _ => none

/-- The gap window of `calculate_gapping_constraints` (src/advisers/CoreAdviserGapping.cpp:65-132): smallest gap for
the energy, largest by column width and fringing, and the saturation gap give the window in which the gap is
searched, and the gap chosen. `search` is the golden-section search (`none`: it threw). -/
structure GapWindow (K : Type) where
  minGap : K
  maxGap : K
  effectiveMin : K
  optimal : K
  deriving Repr

/-- Models `calculate_gapping_constraints` (src/advisers/CoreAdviserGapping.cpp:42-135) from the computed limits on. -/
def gapConstraints (goldenStrategy : Bool) (search : K → K → Option K) (energyGap columnGap fringingGap saturationGap : K) :
    GapWindow K :=
  let mx := min columnGap fringingGap
  let mx := if mx < energyGap then energyGap else mx
  let eff := max energyGap saturationGap
  let mx := if mx < eff then eff * (3 / 2) else mx
  let opt := if goldenStrategy then (search eff mx).getD eff else eff
  ⟨energyGap, mx, eff, opt⟩

end Verif.Adviser
